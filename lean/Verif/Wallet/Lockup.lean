import Verif.Wallet.Sim

/-! # What leaves the lockup of the system, leaves it by order of the owner -/

namespace Verif.Wallet

open Verif
open Verif.System (Sys)

/-- The receipt is what the owner's call `c` orders: a payment, or a full access key. -/
def Ordered (p : Lockup.Pending) (c : Lockup.OwnerCall) : Prop :=
  (∃ r x, p.ext = .transfer r x ∧ p.cb = none ∧ c = .transfer x r) ∨
  ∃ k, p.ext = .addFullAccessKey k ∧ c = .addFullAccessKey k

/-- The receipt is a payment by the owner or adds a full access key. -/
def Leaving (p : Lockup.Pending) : Prop :=
  (∃ r x, p.ext = .transfer r x ∧ p.cb = none) ∨ ∃ k, p.ext = .addFullAccessKey k

theorem runExt_lk (cfg : System.Cfg) (s : Sys) (p : Lockup.Pending) (ok : Bool) (r : Lockup.PResult) :
    (System.runExt cfg s p ok r).2.lk.c = s.lk.c ∧
    ((System.runExt cfg s p ok r).2.lk.fullKey = true →
      s.lk.fullKey = true ∨ ∃ k, p.ext = .addFullAccessKey k) := by
  have hans : ∀ r, (System.answered cfg s p r).2.lk.c = s.lk.c ∧
      ((System.answered cfg s p r).2.lk.fullKey = true →
        s.lk.fullKey = true ∨ ∃ k, p.ext = .addFullAccessKey k) := by
    intro r
    unfold System.answered
    obtain ⟨ext, cb, st⟩ := p
    refine ⟨(Lockup.runExt_facts cfg.lk s.lk _ r).1, fun h => ?_⟩
    cases ext with
    | addFullAccessKey k => exact .inr ⟨k, rfl⟩
    | _ =>
      left
      revert h
      simp only [Lockup.runExt]
      (repeat' split) <;> exact id
  unfold System.runExt System.callPool
  (repeat' split) <;> first | exact hans _ | exact ⟨rfl, .inl⟩

theorem step_leaving {cfg : System.Cfg} {s : Sys} (ev : System.Ev) :
    (System.step cfg s ev).lk.c.owner = s.lk.c.owner ∧
    (∀ p ∈ (System.step cfg s ev).lk.pend, Leaving p →
      (∃ p' ∈ s.lk.pend, p'.ext = p.ext ∧ p'.cb = p.cb) ∨
      ∃ c, ev = .call s.lk.c.owner 0 (.owner c) ∧ Ordered p c) ∧
    ((System.step cfg s ev).lk.fullKey = true → s.lk.fullKey = true ∨
      ∃ p ∈ s.lk.pend, ∃ k, p.ext = .addFullAccessKey k) := by
  have quiet : ∀ s' : Sys, s'.lk = s.lk → s'.lk.c.owner = s.lk.c.owner ∧
      (∀ p ∈ s'.lk.pend, Leaving p →
        (∃ p' ∈ s.lk.pend, p'.ext = p.ext ∧ p'.cb = p.cb) ∨
        ∃ c, ev = .call s.lk.c.owner 0 (.owner c) ∧ Ordered p c) ∧
      (s'.lk.fullKey = true → s.lk.fullKey = true ∨
        ∃ p ∈ s.lk.pend, ∃ k, p.ext = .addFullAccessKey k) := by
    intro s' h
    rw [h]
    exact ⟨rfl, fun p hp _ => .inl ⟨p, hp, rfl, rfl⟩, .inl⟩
  -- events of the lockup alone
  have alone : ∀ e : Lockup.Ev, (∀ i r, e ≠ .execute i r) →
      (∀ who c, e = .call who 0 (.owner c) → ev = .call who 0 (.owner c)) →
      (Lockup.step cfg.lk s.lk e).c.owner = s.lk.c.owner ∧
      (∀ p ∈ (Lockup.step cfg.lk s.lk e).pend, Leaving p →
        (∃ p' ∈ s.lk.pend, p'.ext = p.ext ∧ p'.cb = p.cb) ∨
        ∃ c, ev = .call s.lk.c.owner 0 (.owner c) ∧ Ordered p c) ∧
      ((Lockup.step cfg.lk s.lk e).fullKey = true → s.lk.fullKey = true ∨
        ∃ p ∈ s.lk.pend, ∃ k, p.ext = .addFullAccessKey k) := by
    intro e he hev
    refine ⟨(Lockup.const_step e).1, ?_⟩
    have hcase := Lockup.step_case cfg.lk s.lk e
    generalize Lockup.step cfg.lk s.lk e = w' at hcase
    cases hcase with
    | quiet ev w' h1 h2 h3 h4 h5 h6 =>
      rw [h2, h6]
      exact ⟨fun p hp _ => .inl ⟨p, hp, rfl, rfl⟩, .inl⟩
    | owner who c c' eff h1 h2 h3 h4 hr =>
      refine ⟨fun p hp hl => ?_, .inl⟩
      rcases List.mem_append.mp (show p ∈ s.lk.pend ++ Lockup.effPending eff from hp) with hq | hq
      · exact .inl ⟨p, hq, rfl, rfl⟩
      · right
        refine ⟨c, h2 ▸ hev who c rfl, ?_⟩
        cases hr with
        | transfer x r l =>
          simp only [Lockup.effPending, List.mem_singleton] at hq
          subst hq
          exact .inl ⟨r, x, rfl, rfl, rfl⟩
        | addKey k =>
          simp only [Lockup.effPending, List.mem_singleton] at hq
          subst hq
          exact .inr ⟨k, rfl, rfl⟩
        | op c si ext cb _ _ hshape =>
          simp only [Lockup.effPending, List.mem_singleton] at hq
          subst hq
          exfalso
          rcases hl with ⟨r, x, g1, g2⟩ | ⟨k, g1⟩
          · cases g2
          · simp only at g1
            subst g1
            cases hshape
        | select q =>
          simp only [Lockup.effPending, List.mem_singleton] at hq
          subst hq
          exfalso
          rcases hl with ⟨r, x, g1, g2⟩ | ⟨k, g1⟩ <;> cases g1
        | unselect => simp [Lockup.effPending] at hq
        | poll q =>
          simp only [Lockup.effPending, List.mem_singleton] at hq
          subst hq
          exfalso
          rcases hl with ⟨r, x, g1, g2⟩ | ⟨k, g1⟩ <;> cases g1
    | foundation who c c' eff h1 h2 h3 hr =>
      refine ⟨fun p hp hl => ?_, .inl⟩
      rcases List.mem_append.mp (show p ∈ s.lk.pend ++ Lockup.effPending eff from hp) with hq | hq
      · exact .inl ⟨p, hq, rfl, rfl⟩
      · exfalso
        cases hr <;> simp only [Lockup.effPending, List.mem_singleton, List.not_mem_nil] at hq <;>
        · subst hq
          rcases hl with ⟨r, x, g1, g2⟩ | ⟨k, g1⟩ <;> first | cases g1; done | cases g2
    | execNone i ext r hi => exact absurd rfl (he i r)
    | execSome i ext cb r hi => exact absurd rfl (he i r)
    | callbackOk i ext cb r c' eff hi hr =>
      refine ⟨fun p hp hl => ?_, .inl⟩
      rcases List.mem_append.mp
        (show p ∈ s.lk.pend.eraseIdx i ++ Lockup.effPending eff from hp) with hq | hq
      · exact .inl ⟨p, List.mem_of_mem_eraseIdx hq, rfl, rfl⟩
      · exfalso
        cases hr <;> simp only [Lockup.effPending, List.mem_singleton, List.not_mem_nil] at hq <;>
        · subst hq
          rcases hl with ⟨r, x, g1, g2⟩ | ⟨k, g1⟩ <;> cases g1
    | callbackPanic i ext cb r hi =>
      exact ⟨fun p hp hl => .inl ⟨p, List.mem_of_mem_eraseIdx hp, rfl, rfl⟩, .inl⟩
  cases ev with
  | call who att c =>
    exact alone _ (by simp) (by rintro w c' h; cases h; rfl)
  | callback i => exact alone _ (by simp) (by simp)
  | arrive x => exact alone _ (by simp) (by simp)
  | income x => exact alone _ (by simp) (by simp)
  | tick x => exact alone _ (by simp) (by simp)
  | execute i ok r =>
    simp only [System.step, System.execute]
    split
    · rename_i ext cb hi
      obtain ⟨g1, g2⟩ := runExt_lk cfg s ⟨ext, cb, .sent⟩ ok r
      have hm : (⟨ext, cb, .sent⟩ : Lockup.Pending) ∈ s.lk.pend := List.mem_of_getElem? hi
      have hfk : (System.runExt cfg s ⟨ext, cb, .sent⟩ ok r).2.lk.fullKey = true →
          s.lk.fullKey = true ∨ ∃ p ∈ s.lk.pend, ∃ k, p.ext = .addFullAccessKey k := by
        intro h
        rcases g2 h with h | ⟨k, h⟩
        · exact .inl h
        · exact .inr ⟨_, hm, k, h⟩
      cases cb with
      | none =>
        refine ⟨congrArg _ g1, fun p hp hl => ?_, hfk⟩
        exact .inl ⟨p, List.mem_of_mem_eraseIdx hp, rfl, rfl⟩
      | some cb =>
        refine ⟨congrArg _ g1, fun p hp hl => ?_, hfk⟩
        rcases List.mem_or_eq_of_mem_set hp with hp | rfl
        · exact .inl ⟨p, hp, rfl, rfl⟩
        · exact .inl ⟨_, hm, rfl, rfl⟩
    · exact quiet s rfl
  | pool p e => exact quiet _ (System.step_pool_lk ..)
  | create p d o k f b ep => exact quiet _ (System.step_create_lk ..)
  | whitelist e => exact quiet _ rfl
  | vote who att c => exact quiet _ rfl
  | voteEpochs k => exact quiet _ rfl

/-- What leaves the lockup was ordered by the owner during the history. -/
theorem run_leaving {cfg : System.Cfg} {s : Sys} (h0 : ∀ p ∈ s.lk.pend, ¬ Leaving p)
    (hk : s.lk.fullKey = false) (evs : List System.Ev) :
    (System.run cfg s evs).lk.c.owner = s.lk.c.owner ∧
    (∀ p ∈ (System.run cfg s evs).lk.pend, Leaving p →
      ∃ c, .call s.lk.c.owner 0 (.owner c) ∈ evs ∧ Ordered p c) ∧
    ((System.run cfg s evs).lk.fullKey = true →
      ∃ k, .call s.lk.c.owner 0 (.owner (.addFullAccessKey k)) ∈ evs) := by
  induction evs using List.reverseRecOn with
  | nil =>
    refine ⟨rfl, fun p hp hl => absurd hl (h0 p hp), fun h => ?_⟩
    simp only [System.run] at h
    rw [hk] at h; cases h
  | append_singleton l ev ih =>
    obtain ⟨i1, i2, i3⟩ := ih
    rw [System.run_append]
    simp only [System.run]
    obtain ⟨j1, j2, j3⟩ := step_leaving (cfg := cfg) (s := System.run cfg s l) ev
    rw [i1] at j1 j2
    refine ⟨j1, fun p hp hl => ?_, fun h => ?_⟩
    · rcases j2 p hp hl with ⟨p', g1, g2, g3⟩ | ⟨c, g1, g2⟩
      · have hl' : Leaving p' := by
          unfold Leaving at hl ⊢
          rw [g2, g3]; exact hl
        obtain ⟨c, g4, g5⟩ := i2 p' g1 hl'
        refine ⟨c, List.mem_append_left _ g4, ?_⟩
        unfold Ordered at g5 ⊢
        rw [← g2, ← g3]; exact g5
      · exact ⟨c, by rw [g1]; simp, g2⟩
    · rcases j3 h with h | ⟨p, g1, k, g2⟩
      · obtain ⟨k, hk⟩ := i3 h
        exact ⟨k, List.mem_append_left _ hk⟩
      · obtain ⟨c, g3, g4⟩ := i2 p g1 (.inr ⟨k, g2⟩)
        rcases g4 with ⟨r, x, g4, _⟩ | ⟨k', g4, rfl⟩
        · rw [g2] at g4; cases g4
        · exact ⟨k', List.mem_append_left _ g3⟩

end Verif.Wallet
