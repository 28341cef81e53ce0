import Verif.Lockup.WorldInv

/-! # Causes: which event of a history is responsible for a change -/

namespace Verif.Lockup

open Verif

/-- What an event did. -/
inductive StepCase (cfg : Cfg) (w : World) : Ev → World → Prop
  /-- nothing visible to the contract, or a rejected call -/
  | quiet (ev : Ev) (w' : World) : w'.c = w.c → w'.pend = w.pend → w'.queried = w.queried →
      w'.approved = w.approved → w'.pollAnswers = w.pollAnswers → w'.fullKey = w.fullKey →
      w'.fixedUnvested = w.fixedUnvested → w'.paid = w.paid → StepCase cfg w ev w'
  | owner (who : AccountId) (c : OwnerCall) (c' : Lockup) (eff : Option Eff) :
      who ≠ cfg.self → who = w.c.owner → w.c.vesting.isTerminating = false →
      effAttached eff ≤ w.bal → OwnerRel (mkEnv cfg w who 0 none) w.c c c' eff →
      StepCase cfg w (.call who 0 (.owner c)) (commit w 0 c' eff)
  | foundation (who : AccountId) (c : FoundationCall) (c' : Lockup) (eff : Option Eff) :
      who ≠ cfg.self → w.c.foundation = some who → effAttached eff ≤ w.bal →
      FoundationRel (mkEnv cfg w who 0 none) w.c c c' eff →
      StepCase cfg w (.call who 0 (.foundation c)) (commit w 0 c' eff)
  | execNone (i : Nat) (ext : Ext) (r : PResult) : w.pend[i]? = some ⟨ext, none, .sent⟩ →
      StepCase cfg w (.execute i r)
        { (runExt cfg w ⟨ext, none, .sent⟩ r).2 with pend := w.pend.eraseIdx i }
  | execSome (i : Nat) (ext : Ext) (cb : Callback) (r : PResult) :
      w.pend[i]? = some ⟨ext, some cb, .sent⟩ →
      StepCase cfg w (.execute i r)
        { (runExt cfg w ⟨ext, some cb, .sent⟩ r).2 with
          pend := w.pend.set i ⟨ext, some cb, .done (runExt cfg w ⟨ext, some cb, .sent⟩ r).1⟩ }
  | callbackOk (i : Nat) (ext : Ext) (cb : Callback) (r : PResult) (c' : Lockup)
      (eff : Option Eff) : w.pend[i]? = some ⟨ext, some cb, .done r⟩ → CbRel w.c r cb c' eff →
      StepCase cfg w (.callback i) (commit { w with pend := w.pend.eraseIdx i } 0 c' eff)
  | callbackPanic (i : Nat) (ext : Ext) (cb : Callback) (r : PResult) :
      w.pend[i]? = some ⟨ext, some cb, .done r⟩ →
      (∀ c' eff, exec (mkEnv cfg { w with pend := w.pend.eraseIdx i } cfg.self 0 (some r)) w.c
        (.callback cb) = .ok (c', eff) → ¬ effAttached eff ≤ w.bal + 0) →
      StepCase cfg w (.callback i) { w with pend := w.pend.eraseIdx i }

theorem step_case (cfg : Cfg) (w : World) (ev : Ev) : StepCase cfg w ev (step cfg w ev) := by
  have q : ∀ {ev}, StepCase cfg w ev w := .quiet _ _ rfl rfl rfl rfl rfl rfl rfl rfl
  cases ev with
  | call who att c =>
    simp only [step]
    split
    · exact q
    · rename_i hw
      rcases doCall_cases cfg w who att none c with ⟨hd, _⟩ | ⟨c', eff, hx, ha, hd⟩
      · rw [hd]; exact q
      · rw [hd]
        cases c with
        | owner c =>
          obtain ⟨h0, h1, h2, hr⟩ := execOwner_rel hx
          have : att = 0 := h0
          subst this
          exact .owner who c c' eff hw h1 h2 ha hr
        | foundation c =>
          obtain ⟨h0, h1, hr⟩ := execFoundation_rel hx
          have : att = 0 := h0
          subst this
          exact .foundation who c c' eff hw h1 ha hr
        | callback c => exact absurd hx (callback_needs_self hw)
  | execute i r =>
    simp only [step, execute]
    split
    · rename_i ext cb hi
      cases cb with
      | none => exact .execNone i ext r hi
      | some cb => exact .execSome i ext cb r hi
    · exact q
  | callback i =>
    simp only [step, callback]
    split
    · rename_i ext cb r hi
      rcases doCall_cases cfg { w with pend := w.pend.eraseIdx i } cfg.self 0 (some r)
        (.callback cb) with ⟨hd, hno⟩ | ⟨c', eff, hx, ha, hd⟩
      · rw [hd]; exact .callbackPanic i ext cb r hi hno
      · rw [hd]
        simp only [exec, bind_ok] at hx
        obtain ⟨_, _, hx⟩ := hx
        obtain ⟨_, r', hr', hrel⟩ := execCallback_rel hx
        cases hr'
        exact .callbackOk i ext cb r c' eff hi hrel
    · exact q
  | arrive x =>
    simp only [step]
    split
    · exact .quiet _ _ rfl rfl rfl rfl rfl rfl rfl rfl
    · exact q
  | income x => exact .quiet _ _ rfl rfl rfl rfl rfl rfl rfl rfl
  | tick x => exact .quiet _ _ rfl rfl rfl rfl rfl rfl rfl rfl
  | poolReward x => exact .quiet _ _ rfl rfl rfl rfl rfl rfl rfl rfl
  | poolLoss x =>
    simp only [step]
    split
    · exact .quiet _ _ rfl rfl rfl rfl rfl rfl rfl rfl
    · exact q

/-- Something that was false and became true was caused by one event. -/
theorem run_cause {cfg : Cfg} (P : World → Prop) {w : World} (evs : List Ev) (h0 : ¬ P w)
    (h1 : P (run cfg w evs)) : ∃ l1 ev l2, evs = l1 ++ ev :: l2 ∧ ¬ P (run cfg w l1) ∧
      P (step cfg (run cfg w l1) ev) := by
  induction evs generalizing w with
  | nil => exact absurd h1 h0
  | cons e t ih =>
    by_cases hp : P (step cfg w e)
    · exact ⟨[], e, t, rfl, h0, hp⟩
    · obtain ⟨l1, ev, l2, h2, h3, h4⟩ := ih hp h1
      exact ⟨e :: l1, ev, l2, by rw [h2]; rfl, h3, h4⟩

theorem effQueried_owner {e : Env} {s s' : Lockup} {c : OwnerCall} {eff : Option Eff}
    (h : OwnerRel e s c s' eff) :
    (∃ p, c = .selectStakingPool p ∧ effQueried eff = [p] ∧
      eff = some ⟨.isWhitelisted s.whitelist p, some (.onWhitelist p)⟩) ∨
    (effQueried eff = [] ∧ ∀ q ∈ effPending eff, ∀ wl p, q.ext ≠ .isWhitelisted wl p) := by
  cases h with
  | select p => exact .inl ⟨p, rfl, rfl, rfl⟩
  | unselect => exact .inr ⟨rfl, by simp [effPending]⟩
  | op c si ext cb h1 h2 h3 =>
    right
    cases h3 <;> exact ⟨rfl, by simp [effPending]⟩
  | poll => exact .inr ⟨rfl, by simp [effPending]⟩
  | transfer => exact .inr ⟨rfl, by simp [effPending]⟩
  | addKey => exact .inr ⟨rfl, by simp [effPending]⟩

theorem effQueried_foundation {e : Env} {s s' : Lockup} {c : FoundationCall} {eff : Option Eff}
    (h : FoundationRel e s c s' eff) :
    effQueried eff = [] ∧ ∀ q ∈ effPending eff, (∀ wl p, q.ext ≠ .isWhitelisted wl p) ∧
      ∀ p, q.ext ≠ .getResult p := by
  cases h <;> exact ⟨rfl, by simp [effPending]⟩

theorem effQueried_cb {s s' : Lockup} {r : PResult} {c : Callback} {eff : Option Eff}
    (h : CbRel s r c s' eff) :
    effQueried eff = [] ∧ ∀ q ∈ effPending eff, (∀ wl p, q.ext ≠ .isWhitelisted wl p) ∧
      ∀ p, q.ext ≠ .getResult p := by
  cases h <;> exact ⟨rfl, by simp [effPending]⟩

/-- Selection invariant. -/
structure SelInv (w : World) : Prop where
  sel : ∀ si, w.c.staking = some si → si.pool ∈ w.approved
  ans : ∀ p ∈ w.pend, ∀ wl pool, p.ext = .isWhitelisted wl pool → p.phase = .done (.bool true) →
    pool ∈ w.approved
  qry : ∀ p ∈ w.pend, ∀ wl pool, p.ext = .isWhitelisted wl pool → pool ∈ w.queried
  sub : ∀ p ∈ w.approved, p ∈ w.queried

theorem runExt_approved {cfg : Cfg} {w : World} {ext : Ext} {cb : Option Callback} {r : PResult} :
    ∀ p, p ∈ (runExt cfg w ⟨ext, cb, .sent⟩ r).2.approved ↔
      p ∈ w.approved ∨ (ext = .isWhitelisted w.c.whitelist p ∧ r = .bool true ∧
        (runExt cfg w ⟨ext, cb, .sent⟩ r).1 = r) := by
  intro p
  cases ext with
  | isWhitelisted wl q =>
    simp only [runExt]
    by_cases h : r = .bool true ∧ wl = w.c.whitelist
    · rw [if_pos h]
      obtain ⟨rfl, rfl⟩ := h
      simp only [List.mem_cons, Ext.isWhitelisted.injEq, true_and, and_true]
      constructor
      · rintro (h | h)
        · exact .inr h.symm
        · exact .inl h
      · rintro (h | h)
        · exact .inr h
        · exact .inl h.symm
    · rw [if_neg h]
      constructor
      · exact .inl
      · rintro (h1 | ⟨h1, h2, _⟩)
        · exact h1
        · simp only [Ext.isWhitelisted.injEq] at h1
          exact absurd ⟨h2, h1.1⟩ h
  | _ => simp only [runExt]; (repeat' split) <;> simp

/-- A new pool in the staking information comes from the whitelist callback. -/
theorem cbRel_staking {s s' : Lockup} {r : PResult} {cb : Callback} {eff : Option Eff}
    (h : CbRel s r cb s' eff) :
    (s.staking = none ∧ ∃ p, cb = .onWhitelist p ∧ r = .bool true ∧
      s'.staking = some ⟨p, false, 0⟩) ∨
    (∀ si', s'.staking = some si' → ∃ si, s.staking = some si ∧ si.pool = si'.pool) ∧
      (s'.staking = none ↔ s.staking = none) := by
  cases h with
  | whitelist p h1 h2 h3 => exact .inl ⟨h2, p, rfl, h1, rfl⟩
  | depositOk cb a si h1 h2 h3 h4 =>
    right; simp [withDeposit, h3]
  | depositFailed cb a si h1 h2 h3 => right; simp [withDeposit, h3]
  | withdrawOk a si h1 h2 => right; simp [withDeposit, h2]
  | withdrawFailed a si h1 h2 => right; simp [withDeposit, h2]
  | stakeLike cb si h1 h2 => right; simp [withDeposit, h2]
  | total n si h1 h2 h3 => right; simp [withDeposit, h3]
  | unstakedNone si h1 h2 => right; simp [withDeposit, h2]
  | tStakedNone si u old h1 h2 => right; simp [withDeposit, h2]
  | tUnstake a si u old h1 => right; simp [withDeposit, h1]
  | tUnstakedNone si u old h1 h2 => right; simp [withDeposit, h2]
  | tWithdrawOk a si u old h1 h2 => right; simp [withDeposit, h2]
  | tWithdrawFailed a si u old h1 h2 => right; simp [withDeposit, h2]
  | _ => exact .inr ⟨fun si' h => ⟨si', h, rfl⟩, Iff.rfl⟩

/-- The selected pool after an owner or foundation call. -/
theorem ownerRel_staking {e : Env} {s s' : Lockup} {c : OwnerCall} {eff : Option Eff}
    (h : OwnerRel e s c s' eff) :
    (c = .unselectStakingPool ∧ s'.staking = none ∧
      ∃ si, s.staking = some si ∧ si.busy = false ∧ si.deposit = 0) ∨
    ((∀ si', s'.staking = some si' → ∃ si, s.staking = some si ∧ si.pool = si'.pool) ∧
      (s'.staking = none ↔ s.staking = none)) := by
  cases h with
  | unselect si h1 h2 h3 => exact .inl ⟨rfl, rfl, si, h1, h2, h3⟩
  | op c si ext cb h1 => right; simp [h1]
  | _ => exact .inr ⟨fun si' h => ⟨si', h, rfl⟩, Iff.rfl⟩

theorem foundationRel_staking {e : Env} {s s' : Lockup} {c : FoundationCall} {eff : Option Eff}
    (h : FoundationRel e s c s' eff) :
    (∀ si', s'.staking = some si' → ∃ si, s.staking = some si ∧ si.pool = si'.pool) ∧
      (s'.staking = none ↔ s.staking = none) := by
  cases h with
  | prepareUnstake si u h1 => simp [h1]
  | prepareWithdraw si u h1 => simp [h1]
  | _ => exact ⟨fun si' h => ⟨si', h, rfl⟩, Iff.rfl⟩

theorem selInv_step {cfg : Cfg} {w : World} (ev : Ev) (hS : SInv w) (h : SelInv w) :
    SelInv (step cfg w ev) := by
  have hcase := step_case cfg w ev
  generalize step cfg w ev = w' at hcase
  cases hcase with
  | quiet ev w' h1 h2 h3 h4 =>
    exact ⟨by rw [h1, h4]; exact h.sel, by rw [h2, h4]; exact h.ans, by rw [h2, h3]; exact h.qry,
      by rw [h3, h4]; exact h.sub⟩
  | owner who c c' eff h1 h2 h3 h4 hr =>
    constructor
    · intro si hsi
      rcases ownerRel_staking hr with ⟨_, h5, _⟩ | ⟨h5, _⟩
      · have : c'.staking = some si := hsi
        rw [h5] at this; cases this
      · obtain ⟨si0, h6, h7⟩ := h5 si hsi
        rw [← h7]; exact h.sel si0 h6
    · intro p hp wl pool he hph
      rcases List.mem_append.mp hp with hp | hp
      · exact h.ans p hp wl pool he hph
      · rw [effPending_sent hp] at hph; cases hph
    · intro p hp wl pool he
      show pool ∈ effQueried eff ++ w.queried
      rcases List.mem_append.mp hp with hp | hp
      · exact List.mem_append_right _ (h.qry p hp wl pool he)
      · rcases effQueried_owner hr with ⟨p', _, h5, rfl⟩ | ⟨_, h5⟩
        · simp only [effPending, List.mem_singleton] at hp
          subst hp
          cases he
          rw [h5]; simp
        · exact absurd he (h5 p hp wl pool)
    · intro p hp
      exact List.mem_append_right _ (h.sub p hp)
  | foundation who c c' eff h1 h2 h3 hr =>
    obtain ⟨h6, h7⟩ := effQueried_foundation hr
    constructor
    · intro si hsi
      obtain ⟨si0, h8, h9⟩ := (foundationRel_staking hr).1 si hsi
      rw [← h9]; exact h.sel si0 h8
    · intro p hp wl pool he hph
      rcases List.mem_append.mp hp with hp | hp
      · exact h.ans p hp wl pool he hph
      · rw [effPending_sent hp] at hph; cases hph
    · intro p hp wl pool he
      show pool ∈ effQueried eff ++ w.queried
      rcases List.mem_append.mp hp with hp | hp
      · exact List.mem_append_right _ (h.qry p hp wl pool he)
      · exact absurd he ((h7 p hp).1 wl pool)
    · intro p hp
      exact List.mem_append_right _ (h.sub p hp)
  | execNone i ext r hi =>
    have ha := runExt_approved (cfg := cfg) (w := w) (ext := ext) (cb := none) (r := r)
    obtain ⟨f1, _, _, _, _, f6, _⟩ := runExt_facts cfg w ⟨ext, none, .sent⟩ r
    have hmem := mem_of_getElem?' hi
    constructor
    · intro si hsi
      exact (ha _).mpr (.inl (h.sel si (f1 ▸ hsi)))
    · intro p hp wl pool he hph
      exact (ha _).mpr (.inl (h.ans p (mem_of_mem_eraseIdx' hp) wl pool he hph))
    · intro p hp wl pool he
      show pool ∈ (runExt cfg w _ r).2.queried
      rw [f6]; exact h.qry p (mem_of_mem_eraseIdx' hp) wl pool he
    · intro p hp
      show p ∈ (runExt cfg w _ r).2.queried
      rw [f6]
      rcases (ha p).mp hp with h1 | ⟨h1, _⟩
      · exact h.sub p h1
      · exact h.qry _ hmem _ p h1
  | execSome i ext cb r hi =>
    have ha := runExt_approved (cfg := cfg) (w := w) (ext := ext) (cb := some cb) (r := r)
    obtain ⟨f1, _, _, _, _, f6, _⟩ := runExt_facts cfg w ⟨ext, some cb, .sent⟩ r
    have hmem := mem_of_getElem?' hi
    constructor
    · intro si hsi
      exact (ha _).mpr (.inl (h.sel si (f1 ▸ hsi)))
    · intro p hp wl pool he hph
      rcases mem_set_cases hp with hp | rfl
      · exact (ha _).mpr (.inl (h.ans p hp wl pool he hph))
      · simp only at he hph
        subst he
        have hc := hS.coh _ hmem
        cases hc
        simp only [Phase.done.injEq] at hph
        have hr : r = .bool true := by simpa [runExt] using hph
        exact (ha _).mpr (.inr ⟨rfl, hr, by rw [hph, hr]⟩)
    · intro p hp wl pool he
      show pool ∈ (runExt cfg w _ r).2.queried
      rw [f6]
      rcases mem_set_cases hp with hp | rfl
      · exact h.qry p hp wl pool he
      · exact h.qry _ hmem wl pool he
    · intro p hp
      show p ∈ (runExt cfg w _ r).2.queried
      rw [f6]
      rcases (ha p).mp hp with h1 | ⟨h1, _⟩
      · exact h.sub p h1
      · exact h.qry _ hmem _ p h1
  | callbackOk i ext cb r c' eff hi hr =>
    obtain ⟨h6, h7⟩ := effQueried_cb hr
    have hmem := mem_of_getElem?' hi
    constructor
    · intro si hsi
      rcases cbRel_staking hr with ⟨_, p, rfl, rfl, h8⟩ | ⟨h8, _⟩
      · have : c'.staking = some si := hsi
        rw [h8] at this; cases this
        have hc := hS.coh _ hmem
        have hx : ext = .isWhitelisted w.c.whitelist p := by cases hc; rfl
        exact h.ans _ hmem _ p hx rfl
      · obtain ⟨si0, h9, h10⟩ := h8 si hsi
        rw [← h10]; exact h.sel si0 h9
    · intro p hp wl pool he hph
      rcases List.mem_append.mp hp with hp | hp
      · exact h.ans p (mem_of_mem_eraseIdx' hp) wl pool he hph
      · rw [effPending_sent hp] at hph; cases hph
    · intro p hp wl pool he
      show pool ∈ effQueried eff ++ w.queried
      rcases List.mem_append.mp hp with hp | hp
      · exact List.mem_append_right _ (h.qry p (mem_of_mem_eraseIdx' hp) wl pool he)
      · exact absurd he ((h7 p hp).1 wl pool)
    · intro p hp
      exact List.mem_append_right _ (h.sub p hp)
  | callbackPanic i ext cb r hi =>
    exact ⟨h.sel, fun p hp => h.ans p (mem_of_mem_eraseIdx' hp),
      fun p hp => h.qry p (mem_of_mem_eraseIdx' hp), h.sub⟩

theorem selInv_run {cfg : Cfg} {w : World} (evs : List Ev) (hS : SInv w) (h : SelInv w) :
    SelInv (run cfg w evs) := by
  induction evs generalizing w with
  | nil => exact h
  | cons ev t ih => exact ih (sinv_step ev hS) (selInv_step ev hS h)

theorem started_selInv {cfg : Cfg} {a : NewArgs} {w0 : World} (h : Started cfg a w0) :
    SelInv w0 := by
  obtain ⟨d, b, n, c, hb, hn, rfl⟩ := h
  obtain ⟨_, _, h2, _⟩ := new_ok hn
  refine ⟨?_, ?_, ?_, ?_⟩
  · intro si hsi; have : c.staking = some si := hsi; rw [h2] at this; cases this
  · intro p hp; simp [initWorld] at hp
  · intro p hp; simp [initWorld] at hp
  · intro p hp; simp [initWorld] at hp

/-! ## Configuration that never changes -/

/-- Owner, whitelist account and lockup terms of the contract never change. -/
theorem const_step {cfg : Cfg} {w : World} (ev : Ev) :
    (step cfg w ev).c.owner = w.c.owner ∧ (step cfg w ev).c.whitelist = w.c.whitelist ∧
    (step cfg w ev).c.info.lockupAmount = w.c.info.lockupAmount ∧
    (step cfg w ev).c.info.lockupDuration = w.c.info.lockupDuration ∧
    (step cfg w ev).c.info.releaseDuration = w.c.info.releaseDuration ∧
    (step cfg w ev).c.info.lockupTimestamp = w.c.info.lockupTimestamp := by
  have hcase := step_case cfg w ev
  generalize step cfg w ev = w' at hcase
  cases hcase with
  | quiet ev w' h1 => rw [h1]; exact ⟨rfl, rfl, rfl, rfl, rfl, rfl⟩
  | owner who c c' eff h1 h2 h3 h4 hr =>
    obtain ⟨_, h5, _, h6, h7, _⟩ := ownerRel_facts hr
    show c'.owner = _ ∧ c'.whitelist = _ ∧ c'.info.lockupAmount = _ ∧ c'.info.lockupDuration = _ ∧
      c'.info.releaseDuration = _ ∧ c'.info.lockupTimestamp = _
    rw [h5, h6, h7]; exact ⟨rfl, rfl, rfl, rfl, rfl, rfl⟩
  | foundation who c c' eff h1 h2 h3 hr => cases hr <;> exact ⟨rfl, rfl, rfl, rfl, rfl, rfl⟩
  | execNone i ext r hi =>
    have := (runExt_facts cfg w ⟨ext, none, .sent⟩ r).1
    simp only [this]; exact ⟨trivial, trivial, trivial, trivial, trivial, trivial⟩
  | execSome i ext cb r hi =>
    have := (runExt_facts cfg w ⟨ext, some cb, .sent⟩ r).1
    simp only [this]; exact ⟨trivial, trivial, trivial, trivial, trivial, trivial⟩
  | callbackOk i ext cb r c' eff hi hr =>
    cases hr <;> exact ⟨rfl, rfl, rfl, rfl, rfl, rfl⟩
  | callbackPanic i ext cb r hi => exact ⟨rfl, rfl, rfl, rfl, rfl, rfl⟩

theorem const_run {cfg : Cfg} {w : World} (evs : List Ev) :
    (run cfg w evs).c.owner = w.c.owner ∧ (run cfg w evs).c.whitelist = w.c.whitelist ∧
    (run cfg w evs).c.info.lockupAmount = w.c.info.lockupAmount ∧
    (run cfg w evs).c.info.lockupDuration = w.c.info.lockupDuration ∧
    (run cfg w evs).c.info.releaseDuration = w.c.info.releaseDuration ∧
    (run cfg w evs).c.info.lockupTimestamp = w.c.info.lockupTimestamp := by
  induction evs generalizing w with
  | nil => exact ⟨rfl, rfl, rfl, rfl, rfl, rfl⟩
  | cons ev t ih =>
    obtain ⟨a1, a2, a3, a4, a5, a6⟩ := ih (w := step cfg w ev)
    obtain ⟨b1, b2, b3, b4, b5, b6⟩ := const_step (cfg := cfg) (w := w) ev
    exact ⟨a1.trans b1, a2.trans b2, a3.trans b3, a4.trans b4, a5.trans b5, a6.trans b6⟩

/-! ## Transfers poll -/

/-- Poll invariant, relative to the initial transfers setting. -/
structure PollInv (t0 : Transfers) (w : World) : Prop where
  tr : w.c.info.transfers = t0 ∨ ∃ poll t, t0 = .disabled poll ∧ (poll, t) ∈ w.pollAnswers ∧
    w.c.info.transfers = .enabled t
  qry : ∀ p ∈ w.pend, ∀ poll, p.ext = .getResult poll → t0 = .disabled poll
  ans : ∀ p ∈ w.pend, ∀ poll t, p.ext = .getResult poll → p.phase = .done (.poll (some t)) →
    (poll, t) ∈ w.pollAnswers

theorem runExt_polls {cfg : Cfg} {w : World} {ext : Ext} {cb : Option Callback} {r : PResult} :
    ∀ x, x ∈ (runExt cfg w ⟨ext, cb, .sent⟩ r).2.pollAnswers ↔
      x ∈ w.pollAnswers ∨ (ext = .getResult x.1 ∧ r = .poll (some x.2)) := by
  intro x
  cases ext with
  | getResult p =>
    cases r with
    | poll o =>
      cases o with
      | none => simp [runExt]
      | some t =>
        simp only [runExt, List.mem_cons, Ext.getResult.injEq, PResult.poll.injEq,
          Option.some.injEq]
        constructor
        · rintro (h | h)
          · exact .inr (by rw [h]; exact ⟨rfl, rfl⟩)
          · exact .inl h
        · rintro (h | ⟨h1, h2⟩)
          · exact .inr h
          · exact .inl (by rw [h1, h2])
    | _ => simp [runExt]
  | _ => simp only [runExt]; (repeat' split) <;> simp

theorem pollInv_step {cfg : Cfg} {t0 : Transfers} {w : World} (ev : Ev) (hS : SInv w)
    (h : PollInv t0 w) : PollInv t0 (step cfg w ev) := by
  have hcase := step_case cfg w ev
  generalize step cfg w ev = w' at hcase
  cases hcase with
  | quiet ev w' h1 h2 h3 h4 h5 =>
    exact ⟨by rw [h1, h5]; exact h.tr, by rw [h2]; exact h.qry, by rw [h2, h5]; exact h.ans⟩
  | owner who c c' eff h1 h2 h3 h4 hr =>
    obtain ⟨_, h5, _⟩ := ownerRel_facts hr
    refine ⟨?_, ?_, ?_⟩
    · show c'.info.transfers = t0 ∨ ∃ poll t, t0 = .disabled poll ∧ (poll, t) ∈ w.pollAnswers ∧
        c'.info.transfers = .enabled t
      rw [h5]; exact h.tr
    · intro p hp poll he
      rcases List.mem_append.mp hp with hp | hq0
      · exact h.qry p hp poll he
      · cases hr with
        | poll q hq =>
          simp only [effPending, List.mem_singleton] at hq0
          subst hq0
          cases he
          rcases h.tr with h6 | ⟨p', t, _, _, h6⟩
          · rw [← h6]; exact hq
          · rw [hq] at h6; cases h6
        | op c si ext cb g1 g2 g3 =>
          simp only [effPending, List.mem_singleton] at hq0
          subst hq0
          simp only at he
          subst he
          cases g3
        | select => simp only [effPending, List.mem_singleton] at hq0; subst hq0; cases he
        | unselect => simp [effPending] at hq0
        | transfer => simp only [effPending, List.mem_singleton] at hq0; subst hq0; cases he
        | addKey => simp only [effPending, List.mem_singleton] at hq0; subst hq0; cases he
    · intro p hp poll t he hph
      rcases List.mem_append.mp hp with hp | hp
      · exact h.ans p hp poll t he hph
      · rw [effPending_sent hp] at hph; cases hph
  | foundation who c c' eff h1 h2 h3 hr =>
    obtain ⟨h6, h7⟩ := effQueried_foundation hr
    refine ⟨?_, ?_, ?_⟩
    · cases hr <;> exact h.tr
    · intro p hp poll he
      rcases List.mem_append.mp hp with hp | hp
      · exact h.qry p hp poll he
      · exact absurd he ((h7 p hp).2 poll)
    · intro p hp poll t he hph
      rcases List.mem_append.mp hp with hp | hp
      · exact h.ans p hp poll t he hph
      · rw [effPending_sent hp] at hph; cases hph
  | execNone i ext r hi =>
    have ha := runExt_polls (cfg := cfg) (w := w) (ext := ext) (cb := none) (r := r)
    obtain ⟨f1, _, _, _, _, f6, _⟩ := runExt_facts cfg w ⟨ext, none, .sent⟩ r
    refine ⟨?_, ?_, ?_⟩
    · show (runExt cfg w _ r).2.c.info.transfers = t0 ∨ _
      rw [f1]
      exact h.tr.imp id (fun ⟨p, t, g1, g2, g3⟩ => ⟨p, t, g1, (ha _).mpr (.inl g2), f1 ▸ g3⟩)
    · exact fun p hp => h.qry p (mem_of_mem_eraseIdx' hp)
    · exact fun p hp poll t he hph =>
        (ha _).mpr (.inl (h.ans p (mem_of_mem_eraseIdx' hp) poll t he hph))
  | execSome i ext cb r hi =>
    have ha := runExt_polls (cfg := cfg) (w := w) (ext := ext) (cb := some cb) (r := r)
    obtain ⟨f1, _, _, _, _, f6, _⟩ := runExt_facts cfg w ⟨ext, some cb, .sent⟩ r
    have hmem := mem_of_getElem?' hi
    refine ⟨?_, ?_, ?_⟩
    · show (runExt cfg w _ r).2.c.info.transfers = t0 ∨ _
      rw [f1]
      exact h.tr.imp id (fun ⟨p, t, g1, g2, g3⟩ => ⟨p, t, g1, (ha _).mpr (.inl g2), f1 ▸ g3⟩)
    · intro p hp poll he
      rcases mem_set_cases hp with hp | rfl
      · exact h.qry p hp poll he
      · exact h.qry _ hmem poll he
    · intro p hp poll t he hph
      rcases mem_set_cases hp with hp | rfl
      · exact (ha _).mpr (.inl (h.ans p hp poll t he hph))
      · simp only at he hph
        subst he
        simp only [Phase.done.injEq] at hph
        refine (ha _).mpr (.inr ⟨rfl, ?_⟩)
        simp only [runExt] at hph
        split at hph
        · rename_i t' _
          simpa using hph
        · simpa using hph
  | callbackOk i ext cb r c' eff hi hr =>
    obtain ⟨h6, h7⟩ := effQueried_cb hr
    have hmem := mem_of_getElem?' hi
    have hq : ∀ p ∈ w.pend.eraseIdx i ++ effPending eff, ∀ poll, p.ext = .getResult poll →
        t0 = .disabled poll := by
      intro p hp poll he
      rcases List.mem_append.mp hp with hp | hp
      · exact h.qry p (mem_of_mem_eraseIdx' hp) poll he
      · exact absurd he ((h7 p hp).2 poll)
    have hans : ∀ p ∈ w.pend.eraseIdx i ++ effPending eff, ∀ poll t, p.ext = .getResult poll →
        p.phase = .done (.poll (some t)) → (poll, t) ∈ w.pollAnswers := by
      intro p hp poll t he hph
      rcases List.mem_append.mp hp with hp | hp
      · exact h.ans p (mem_of_mem_eraseIdx' hp) poll t he hph
      · rw [effPending_sent hp] at hph; cases hph
    refine ⟨?_, hq, hans⟩
    cases hr with
    | pollYes t g1 g2 g3 =>
      right
      have hc := hS.coh _ hmem
      have : ∃ p, ext = .getResult p := by cases hc; exact ⟨_, rfl⟩
      obtain ⟨p, rfl⟩ := this
      exact ⟨p, t, h.qry _ hmem p rfl, h.ans _ hmem p t rfl (by rw [g1]), rfl⟩
    | _ => exact h.tr
  | callbackPanic i ext cb r hi =>
    exact ⟨h.tr, fun p hp => h.qry p (mem_of_mem_eraseIdx' hp),
      fun p hp => h.ans p (mem_of_mem_eraseIdx' hp)⟩

theorem pollInv_run {cfg : Cfg} {t0 : Transfers} {w : World} (evs : List Ev) (hS : SInv w)
    (h : PollInv t0 w) : PollInv t0 (run cfg w evs) := by
  induction evs generalizing w with
  | nil => exact h
  | cons ev t ih => exact ih (sinv_step ev hS) (pollInv_step ev hS h)

theorem started_pollInv {cfg : Cfg} {a : NewArgs} {w0 : World} (h : Started cfg a w0) :
    PollInv a.transfers w0 := by
  obtain ⟨d, b, n, c, hb, hn, rfl⟩ := h
  obtain ⟨_, _, _, _, _, _, _, _, _, _, h1, _⟩ := new_ok hn
  refine ⟨.inl h1, ?_, ?_⟩
  · intro p hp; simp [initWorld] at hp
  · intro p hp; simp [initWorld] at hp

end Verif.Lockup
