import Verif.System.Recover

/-! # Waiting: events that are not calls of the owner or the foundation -/

namespace Verif.Lockup

open Verif

/-- A pool is selected and idle, and no step of a termination is running. -/
structure Calm (c : Lockup) (pool : AccountId) (known : Nat) : Prop where
  staking : c.staking = some ⟨pool, false, known⟩
  vesting : ∀ u st, c.vesting = .terminating u st →
    st = .terminatedWithDeficit ∨ st = .everythingUnstaked ∨ st = .readyToWithdraw

/-- What stays the same. -/
structure Same (c c' : Lockup) : Prop where
  staking : c'.staking = c.staking
  vesting : c'.vesting = c.vesting
  owner : c'.owner = c.owner
  foundation : c'.foundation = c.foundation
  withdrawn : c'.info.terminationWithdrawn = c.info.terminationWithdrawn

theorem Same.refl (c : Lockup) : Same c c := ⟨rfl, rfl, rfl, rfl, rfl⟩

theorem Same.trans {a b c : Lockup} (h : Same a b) (h' : Same b c) : Same a c :=
  ⟨h'.staking.trans h.staking, h'.vesting.trans h.vesting, h'.owner.trans h.owner,
    h'.foundation.trans h.foundation, h'.withdrawn.trans h.withdrawn⟩

theorem Same.calm {c c' : Lockup} {pool : AccountId} {known : Nat} (h : Same c c')
    (hc : Calm c pool known) : Calm c' pool known :=
  ⟨by rw [h.staking]; exact hc.staking, by rw [h.vesting]; exact hc.vesting⟩

/-- No operation at a pool is in flight in a calm state. -/
theorem calm_no_op {w : World} {pool : AccountId} {known : Nat} (h : SInv w)
    (hc : Calm w.c pool known) {q : Pending} (hq : q ∈ w.pend) : q.ext.isPoolOp = false := by
  have h1 := h.ops
  rw [busyN_idle hc.staking rfl] at h1
  have h2 := all_zero_of_psum (Nat.le_zero.mp h1) q hq
  rw [opN_eq (h.coh q hq)] at h2
  cases hb : q.ext.isPoolOp
  · rfl
  · rw [hb] at h2; simp at h2

theorem calm_cb {w : World} {pool : AccountId} {known : Nat} (h : SInv w)
    (hc : Calm w.c pool known) {i : Nat} {ext : Ext} {cb : Callback} {r : PResult} {c' : Lockup}
    {eff : Option Eff} (hi : w.pend[i]? = some ⟨ext, some cb, .done r⟩)
    (hr : CbRel w.c r cb c' eff) : Same w.c c' ∧ eff = none := by
  have hm := mem_of_getElem?' hi
  have h1 := calm_no_op h hc hm
  have h2 := h.coh _ hm
  have hneed : ∀ st, cb.needs = some st → False := by
    intro st hst
    obtain ⟨u, hu⟩ := h.need _ hm cb st rfl hst
    rcases hc.vesting u st hu with rfl | rfl | rfl <;> cases cb <;>
      simp [Callback.needs] at hst
  have hop : opN ⟨ext, some cb, .done r⟩ = 0 := by
    rw [opN_eq h2, h1]; rfl
  cases hr with
  | whitelist p _ h4 => rw [hc.staking] at h4; cases h4
  | pollYes t _ _ _ => exact ⟨⟨rfl, rfl, rfl, rfl, rfl⟩, rfl⟩
  | pollNo _ _ => exact ⟨Same.refl _, rfl⟩
  | depositOk cb a si h3 => rcases h3 with rfl | rfl <;> simp [opN, Callback.isOp] at hop
  | depositFailed cb a si h3 => rcases h3 with rfl | rfl <;> simp [opN, Callback.isOp] at hop
  | stakeLike cb si h3 =>
    rcases h3 with ⟨a, rfl⟩ | ⟨a, rfl⟩ | rfl <;> simp [opN, Callback.isOp] at hop
  | paidSome _ _ => exact (hneed _ rfl).elim
  | paidAll _ _ => exact (hneed _ rfl).elim
  | paidFailed _ _ => exact (hneed _ rfl).elim
  | _ => simp [opN, Callback.isOp] at hop

/-- Events that are not calls of the owner (who is blocked during a termination) or the foundation
leave a calm lockup as it is, up to the transfers information. -/
theorem calm_step {cfg : Cfg} {w : World} {pool : AccountId} {known : Nat} (h : SInv w)
    (hc : Calm w.c pool known) {ev : Ev}
    (hq : ∀ who att c, ev = .call who att c →
      (w.c.vesting.isTerminating = true ∨ who ≠ w.c.owner) ∧ w.c.foundation ≠ some who) :
    Same w.c (step cfg w ev).c := by
  have hcase := step_case cfg w ev
  generalize step cfg w ev = w' at hcase
  cases hcase with
  | quiet ev w' h1 => rw [h1]; exact Same.refl _
  | owner who c c' eff _ h2 h3 =>
    rcases (hq _ _ _ rfl).1 with h4 | h4
    · rw [h3] at h4; cases h4
    · exact absurd h2 h4
  | foundation who c c' eff _ h2 => exact absurd h2 (hq _ _ _ rfl).2
  | execNone i ext r hi =>
    have := (runExt_facts cfg w ⟨ext, none, .sent⟩ r).1
    simp only [this]; exact Same.refl _
  | execSome i ext cb r hi =>
    have := (runExt_facts cfg w ⟨ext, some cb, .sent⟩ r).1
    simp only [this]; exact Same.refl _
  | callbackOk i ext cb r c' eff hi hr => exact (calm_cb h hc hi hr).1
  | callbackPanic i ext cb r hi => exact Same.refl _

/-- Such events do not take tokens from the account. -/
theorem calm_bal {cfg : Cfg} {w : World} {pool : AccountId} {known : Nat} (h : SInv w)
    (hc : Calm w.c pool known) {ev : Ev}
    (hq : ∀ who att c, ev = .call who att c →
      (w.c.vesting.isTerminating = true ∨ who ≠ w.c.owner) ∧ w.c.foundation ≠ some who) :
    w.bal ≤ (step cfg w ev).bal := by
  cases ev with
  | call who att c =>
    simp only [step]
    split
    · exact Nat.le_refl _
    · rename_i hw
      obtain ⟨h4, h5⟩ := hq who att c rfl
      rcases doCall_cases cfg w who att none c with ⟨hd, _⟩ | ⟨c', eff, hx, ha, hd⟩
      · rw [hd]
      · exfalso
        cases c with
        | owner c =>
          obtain ⟨_, h1, h2, _⟩ := execOwner_rel hx
          rcases h4 with h4 | h4
          · rw [show w.c.vesting.isTerminating = false from h2] at h4; cases h4
          · exact h4 h1
        | foundation c => exact h5 (execFoundation_rel hx).2.1
        | callback c => exact callback_needs_self hw hx
  | execute i r =>
    simp only [step, execute]
    split
    · rename_i ext cb hi
      have := (runExt_facts cfg w ⟨ext, cb, .sent⟩ r).2.2.1
      cases cb <;> exact Nat.le_of_eq this.symm
    · exact Nat.le_refl _
  | callback i =>
    simp only [step, callback]
    split
    · rename_i ext cb r hi
      rcases doCall_cases cfg { w with pend := w.pend.eraseIdx i } cfg.self 0 (some r)
        (.callback cb) with ⟨hd, hno⟩ | ⟨c', eff, hx, ha, hd⟩
      · rw [hd]
      · rw [hd]
        simp only [exec, bind_ok] at hx
        obtain ⟨_, _, hx⟩ := hx
        obtain ⟨_, r', hr', hrel⟩ := execCallback_rel hx
        cases hr'
        have := (calm_cb h hc hi hrel).2
        subst this
        exact Nat.le_refl _
    · exact Nat.le_refl _
  | arrive x =>
    simp only [step]
    split
    · exact Nat.le_add_right _ _
    · exact Nat.le_refl _
  | income x => exact Nat.le_add_right _ _
  | tick x => exact Nat.le_refl _
  | poolReward x => exact Nat.le_refl _
  | poolLoss x =>
    simp only [step]
    split <;> exact Nat.le_refl _

end Verif.Lockup

namespace Verif.System

open Verif

/-- Who calls the lockup in this event, if anybody. -/
def Ev.caller : Ev → Option AccountId
  | .call who _ _ => some who
  | _ => none

/-- The event is no call by the owner (unless a termination blocks the owner) or the foundation. -/
def Ev.Quiet (c : Lockup.Lockup) (ev : Ev) : Prop :=
  ∀ who, ev.caller = some who →
    (c.vesting.isTerminating = true ∨ who ≠ c.owner) ∧ c.foundation ≠ some who

/-- `w'` came from `w` without calls of the lockup. -/
def Others (cfg : Cfg) (p : AccountId) (w w' : StakingPool.World) : Prop :=
  ∃ evs : List StakingPool.Ev, (∀ e ∈ evs, ¬ e.isCallBy cfg.lockup) ∧
    w' = StakingPool.run (cfg.pool p) w evs

theorem Others.refl {cfg : Cfg} {p : AccountId} {w : StakingPool.World} : Others cfg p w w :=
  ⟨[], by simp, rfl⟩

theorem pool_run_append (cfg : StakingPool.Cfg) (w : StakingPool.World) (l1 l2 : List StakingPool.Ev) :
    StakingPool.run cfg w (l1 ++ l2) = StakingPool.run cfg (StakingPool.run cfg w l1) l2 := by
  induction l1 generalizing w with
  | nil => rfl
  | cons e t ih => exact ih _

theorem Others.trans {cfg : Cfg} {p : AccountId} {w w1 w2 : StakingPool.World}
    (h : Others cfg p w w1) (h' : Others cfg p w1 w2) : Others cfg p w w2 := by
  obtain ⟨l1, h1, rfl⟩ := h
  obtain ⟨l2, h2, rfl⟩ := h'
  refine ⟨l1 ++ l2, ?_, (pool_run_append _ _ _ _).symm⟩
  intro e he
  rcases List.mem_append.mp he with he | he
  · exact h1 e he
  · exact h2 e he

theorem calm_sys_step {cfg : Cfg} {a : Lockup.NewArgs} {s : Sys} (h : Inv cfg a s)
    {pool : AccountId} {known : Nat} (hc : Lockup.Calm s.lk.c pool known) {ev : Ev}
    (hq : ev.Quiet s.lk.c) :
    Lockup.Same s.lk.c (step cfg s ev).lk.c ∧ s.lk.bal ≤ (step cfg s ev).lk.bal ∧
    ∀ w, s.pools.get pool = some w →
      ∃ w', (step cfg s ev).pools.get pool = some w' ∧ Others cfg pool w w' := by
  have hS : Lockup.SInv s.lk := by
    have h1 := h.sinv all
    exact ⟨h1.coh, h1.ops, h1.need, h1.pays, h1.payLe, h1.fix, h1.paid, h1.amt⟩
  have triv : ∀ s' : Sys, s'.pools = s.pools → ∀ w, s.pools.get pool = some w →
      ∃ w', s'.pools.get pool = some w' ∧ Others cfg pool w w' := by
    intro s' hs' w hw
    exact ⟨w, by rw [hs']; exact hw, .refl⟩
  cases ev with
  | call who att c =>
    have hq' : ∀ who' att' c', (Lockup.Ev.call who att c) = .call who' att' c' →
        (s.lk.c.vesting.isTerminating = true ∨ who' ≠ s.lk.c.owner) ∧
          s.lk.c.foundation ≠ some who' := by
      intro who' att' c' he; cases he; exact hq who rfl
    exact ⟨Lockup.calm_step hS hc hq', Lockup.calm_bal hS hc hq', triv _ rfl⟩
  | callback i => exact ⟨Lockup.calm_step hS hc (by intro _ _ _ he; cases he),
      Lockup.calm_bal hS hc (by intro _ _ _ he; cases he), triv _ rfl⟩
  | arrive x => exact ⟨Lockup.calm_step hS hc (by intro _ _ _ he; cases he),
      Lockup.calm_bal hS hc (by intro _ _ _ he; cases he), triv _ rfl⟩
  | income x => exact ⟨Lockup.calm_step hS hc (by intro _ _ _ he; cases he),
      Lockup.calm_bal hS hc (by intro _ _ _ he; cases he), triv _ rfl⟩
  | tick x => exact ⟨Lockup.calm_step hS hc (by intro _ _ _ he; cases he),
      Lockup.calm_bal hS hc (by intro _ _ _ he; cases he), triv _ rfl⟩
  | execute i ok r =>
    show Lockup.Same s.lk.c (execute cfg s i ok r).lk.c ∧ _
    by_cases hi : ∃ ext cb, s.lk.pend[i]? = some ⟨ext, cb, .sent⟩
    · obtain ⟨ext, cb, hi⟩ := hi
      have hm := Lockup.mem_of_getElem?' hi
      have hno := Lockup.calm_no_op hS hc hm
      have h1 : callOf ext = none := by cases ext <;> simp_all [callOf, Lockup.Ext.isPoolOp]
      have h2 : viewOf ext = none := by cases ext <;> simp_all [viewOf, Lockup.Ext.isPoolOp]
      have hx : ∃ r', runExt cfg s ⟨ext, cb, .sent⟩ ok r = answered cfg s ⟨ext, cb, .sent⟩ r' := by
        simp only [runExt, h1, h2]
        split
        · exact ⟨_, rfl⟩
        · split <;> exact ⟨_, rfl⟩
      obtain ⟨r', hx⟩ := hx
      obtain ⟨hcc, _, hcb, _⟩ := Lockup.runExt_facts cfg.lk s.lk ⟨ext, cb, .sent⟩ r'
      have he : (step cfg s (.execute i ok r)).lk.c = s.lk.c ∧
          (step cfg s (.execute i ok r)).lk.bal = s.lk.bal ∧
          (step cfg s (.execute i ok r)).pools = s.pools := by
        show (execute cfg s i ok r).lk.c = _ ∧ (execute cfg s i ok r).lk.bal = _ ∧
          (execute cfg s i ok r).pools = _
        simp only [execute, hi, hx, answered]
        cases cb with
        | none => exact ⟨hcc, hcb, rfl⟩
        | some cb => exact ⟨hcc, hcb, rfl⟩
      refine ⟨?_, Nat.le_of_eq he.2.1.symm, triv _ he.2.2⟩
      have := he.1
      show Lockup.Same s.lk.c (step cfg s (.execute i ok r)).lk.c
      rw [this]; exact Lockup.Same.refl _
    · have he : step cfg s (.execute i ok r) = s := by
        show execute cfg s i ok r = s
        unfold execute
        split
        · rename_i ext cb hi'
          exact absurd ⟨_, _, hi'⟩ hi
        · rfl
      refine ⟨?_, ?_, ?_⟩
      · show Lockup.Same s.lk.c (step cfg s (.execute i ok r)).lk.c
        rw [he]; exact Lockup.Same.refl _
      · rw [he]
      · rw [he]; exact triv _ rfl
  | pool q pev =>
    refine ⟨by rw [step_pool_lk]; exact Lockup.Same.refl _, by rw [step_pool_lk], ?_⟩
    intro w hw
    by_cases hpq : q = pool
    · subst hpq
      have key : ∀ e : StakingPool.Ev, ¬ e.isCallBy cfg.lockup →
          ∃ w', (s.pools.insert q (StakingPool.step (cfg.pool q) w e)).get q = some w' ∧
            Others cfg q w w' := by
        intro e he
        refine ⟨StakingPool.step (cfg.pool q) w e, by rw [UMap.get_insert, if_pos rfl], [e], ?_, rfl⟩
        intro e' he'
        simp only [List.mem_singleton] at he'
        rw [he']; exact he
      cases pev with
      | call who att c =>
        simp only [step, hw]
        split
        · exact ⟨w, hw, .refl⟩
        · rename_i hne; exact key _ (by simpa [StakingPool.Ev.isCallBy] using hne)
      | _ => simp only [step, hw]; exact key _ (by simp [StakingPool.Ev.isCallBy])
    · have : (step cfg s (.pool q pev)).pools.get pool = s.pools.get pool := by
        cases hq' : s.pools.get q with
        | none => simp only [step, hq']
        | some w2 =>
          cases pev with
          | call who att c =>
            simp only [step, hq']
            split
            · rfl
            · rw [UMap.get_insert, if_neg hpq]
          | _ =>
            simp only [step, hq']
            rw [UMap.get_insert, if_neg hpq]
      exact ⟨w, by rw [this]; exact hw, .refl⟩
  | create q deployer owner key fee balance epoch =>
    refine ⟨by rw [step_create_lk]; exact Lockup.Same.refl _, by rw [step_create_lk], ?_⟩
    intro w hw
    refine ⟨w, ?_, .refl⟩
    simp only [step, create]
    split
    · exact hw
    · rename_i hne
      have hqp : pool ≠ q := by
        intro e
        subst e
        apply hne
        right
        rw [contains_get]; exact ⟨w, hw⟩
      split
      · split
        · simp only [UMap.get_insert, if_neg (Ne.symm hqp)]; exact hw
        · exact hw
      · exact hw
  | whitelist ev => exact ⟨Lockup.Same.refl _, Nat.le_refl _, triv _ rfl⟩
  | vote who att c => exact ⟨Lockup.Same.refl _, Nat.le_refl _, triv _ rfl⟩
  | voteEpochs k => exact ⟨Lockup.Same.refl _, Nat.le_refl _, triv _ rfl⟩

theorem calm_sys_run {cfg : Cfg} {a : Lockup.NewArgs} {s : Sys} (h : Inv cfg a s)
    {pool : AccountId} {known : Nat} (hc : Lockup.Calm s.lk.c pool known) {evs : List Ev}
    (hcar : Careful cfg s evs)
    (hq : ∀ ev ∈ evs, ev.Quiet s.lk.c) {w : StakingPool.World}
    (hw : s.pools.get pool = some w) :
    Lockup.Same s.lk.c (run cfg s evs).lk.c ∧ s.lk.bal ≤ (run cfg s evs).lk.bal ∧
    ∃ w', (run cfg s evs).pools.get pool = some w' ∧ Others cfg pool w w' := by
  induction evs generalizing s w with
  | nil => exact ⟨Lockup.Same.refl _, Nat.le_refl _, w, hw, .refl⟩
  | cons ev t ih =>
    obtain ⟨h1, hb1, h2⟩ := calm_sys_step h hc (hq ev (by simp))
    obtain ⟨w1, hw1, ho1⟩ := h2 w hw
    obtain ⟨h3, hb3, w2, hw2, ho2⟩ := ih (inv_step h ev hcar.1).1 (h1.calm hc) hcar.2
      (by
        intro e he
        unfold Ev.Quiet
        rw [h1.owner, h1.foundation, h1.vesting]
        exact hq e (by simp [he])) hw1
    exact ⟨h1.trans h3, Nat.le_trans hb1 hb3, w2, hw2, ho1.trans ho2⟩

end Verif.System
