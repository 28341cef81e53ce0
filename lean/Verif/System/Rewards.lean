import Verif.System.Props3
import Verif.System.Props7

/-! # Taking rewards out: what does not change while waiting, and a transfer by the owner -/

namespace Verif.Lockup

open Verif

theorem now_doCall (cfg : Cfg) (w : World) (who : AccountId) (att : Nat) (r : Option PResult) (c : Call) :
    (doCall cfg w who att r c).now = w.now := by
  unfold doCall
  split
  · split <;> rfl
  · rfl

theorem now_step (cfg : Cfg) (w : World) (ev : Ev) : w.now ≤ (step cfg w ev).now := by
  cases ev with
  | call who att c =>
    simp only [step]
    split
    · exact Nat.le_refl _
    · exact (now_doCall ..).symm.le
  | execute i r =>
    simp only [step, execute]
    split
    · rename_i ext cb _
      have := (runExt_facts cfg w ⟨ext, cb, .sent⟩ r).2.2.2.1
      cases cb <;> exact this.symm.le
    · exact Nat.le_refl _
  | callback i =>
    simp only [step, callback]
    split
    · rw [now_doCall]
    · exact Nat.le_refl _
  | arrive x => simp only [step]; split <;> exact Nat.le_refl _
  | income x => exact Nat.le_refl _
  | tick dt => exact Nat.le_add_right _ _
  | poolReward x => exact Nat.le_refl _
  | poolLoss x => simp only [step]; split <;> exact Nat.le_refl _

theorem now_run (cfg : Cfg) (w : World) (evs : List Ev) : w.now ≤ (run cfg w evs).now := by
  induction evs generalizing w with
  | nil => exact Nat.le_refl _
  | cons ev t ih => exact (now_step cfg w ev).trans (ih _)

/-- The balance views without the assumptions on the range of the release. -/
theorem views_eq {e : Env} {c : Lockup} {L : Nat} (hL : getLockedAmount e c = .ok L)
    (hsum : e.accountBalance + knownDeposited c < two128) :
    getOwnersBalance e c = .ok (e.accountBalance + knownDeposited c - L) ∧
    getLiquidOwnersBalance e c = .ok (min (e.accountBalance + knownDeposited c - L)
      (e.accountBalance - 35 * 10 ^ 23)) := by
  rw [← minBalanceForStorage_eq]
  have hs : addU128 e.accountBalance (knownDeposited c) =
      .ok (e.accountBalance + knownDeposited c) := addU128_ok.mpr ⟨hsum, rfl⟩
  refine ⟨?_, ?_⟩
  · simp only [getOwnersBalance, hs, hL, ok_bind]; rfl
  · simp only [getLiquidOwnersBalance, getOwnersBalance, hs, hL, ok_bind]; rfl

/-- A transfer by the owner: when the liquid balance covers it, the amount leaves with a receipt. -/
theorem step_transfer {cfg : Cfg} {w : World} (ho : w.c.owner ≠ cfg.self) {L x : Nat} {r : AccountId}
    (hL : getLockedAmount (mkEnv cfg w w.c.owner 0 none) w.c = .ok L)
    (hsum : w.bal + knownDeposited w.c < two128) (hx0 : 0 < x) (hr : cfg.validAccountId r = true)
    (ht : ∃ t, w.c.info.transfers = .enabled t)
    (hidle : ∀ si, w.c.staking = some si → si.busy = false)
    (hterm : ∀ u st, w.c.vesting ≠ .terminating u st)
    (h1 : x + L ≤ w.bal + knownDeposited w.c) (h2 : x + 35 * 10 ^ 23 ≤ w.bal) :
    step cfg w (.call w.c.owner 0 (.owner (.transfer x r))) =
      { w with bal := w.bal - x, pend := w.pend ++ [⟨.transfer r x, none, .sent⟩] } := by
  have hv := (views_eq (e := mkEnv cfg w w.c.owner 0 none) hL
    (by show w.bal + 0 + _ < _; omega)).2
  have hab : (mkEnv cfg w w.c.owner 0 none).accountBalance = w.bal := Nat.add_zero _
  rw [hab] at hv
  obtain ⟨c', eff, hx⟩ := (C76_liquid_is_transferable (x := x) (r := r) hv rfl rfl ⟨hx0, by omega⟩ hr ht hidle hterm).mpr
    (Nat.le_min.mpr ⟨by omega, by omega⟩)
  have hx' := hx
  simp only [exec, execOwner, transfer, bind_ok, pure_ok, Prod.mk.injEq] at hx'
  obtain ⟨_, _, _, _, _, _, _, _, _, _, _, _, _, _, _, _, _, _, _, _, rfl, rfl⟩ := hx'
  rw [step_call_ok ho hx (by show x ≤ w.bal; omega)]
  have hnt : ∀ f, newFixed w.c.vesting w.c.vesting f = f := fun f =>
    newFixed_same (by cases hv : w.c.vesting <;> simp [Vesting.isTerminating])
  simp only [commit, effPending, hnt, effAttached, Ext.attached, effQueried, List.nil_append,
    Nat.add_zero]

end Verif.Lockup

namespace Verif.System

open Verif

/-- What the pool owes to an account does not shrink without calls of this account. -/
theorem worth_others {cfg : StakingPool.Cfg} {w : StakingPool.World} (h : StakingPool.Reachable cfg w)
    {a : AccountId} {evs : List StakingPool.Ev} (hn : ∀ ev ∈ evs, ¬ ev.isCallBy a) :
    worth a w ≤ worth a (StakingPool.run cfg w evs) := by
  induction evs generalizing w with
  | nil => exact Nat.le_refl _
  | cons ev t ih =>
    exact (worth_other h (hn ev (by simp))).trans
      (ih (reach_step h ev) (fun e he => hn e (by simp [he])))

/-- While the owner and the foundation wait, an enabled lockup keeps its terms, and the locked amount does
not grow. -/
theorem locked_wait {cfg : Cfg} {a : Lockup.NewArgs} {s : Sys} (h : Inv cfg a s)
    (hv : Lockup.VestingOk cfg.lk (Lockup.argVesting a)) {evs : List Ev} (hcar : Careful cfg s evs)
    (hsame : Lockup.Same s.lk.c (run cfg s evs).lk.c) {t : Nat}
    (ht : s.lk.c.info.transfers = .enabled t) :
    (run cfg s evs).lk.c.info = s.lk.c.info ∧ s.lk.now ≤ (run cfg s evs).lk.now ∧
    ∃ L L', (∀ e : Lockup.Env, e.now = s.lk.now → Lockup.getLockedAmount e s.lk.c = .ok L) ∧
      (∀ (e : Lockup.Env) (c : Lockup.Lockup), e.now = (run cfg s evs).lk.now →
        c.vesting = s.lk.c.vesting → c.info = s.lk.c.info → Lockup.getLockedAmount e c = .ok L') ∧
      L' ≤ L := by
  obtain ⟨_, l, _, hl⟩ := inv_run h hcar
  have hc := congrArg Lockup.World.c hl
  obtain ⟨_, _, c3, c4, c5, c6⟩ := Lockup.const_run (cfg := cfg.lk) (w := abs cfg all s) l
  have c7 := Lockup.enabled_run (cfg := cfg.lk) (w := abs cfg all s) l ht
  have hn := Lockup.now_run cfg.lk (abs cfg all s) l
  rw [← hl] at c3 c4 c5 c6 c7 hn
  have c8 := hsame.withdrawn
  have hinfo : (run cfg s evs).lk.c.info = s.lk.c.info := by
    have e3 : (run cfg s evs).lk.c.info.lockupAmount = s.lk.c.info.lockupAmount := c3
    have e4 : (run cfg s evs).lk.c.info.lockupDuration = s.lk.c.info.lockupDuration := c4
    have e5 : (run cfg s evs).lk.c.info.releaseDuration = s.lk.c.info.releaseDuration := c5
    have e6 : (run cfg s evs).lk.c.info.lockupTimestamp = s.lk.c.info.lockupTimestamp := c6
    have e7 : (run cfg s evs).lk.c.info.transfers = .enabled t := c7
    generalize (run cfg s evs).lk.c.info = i at *
    generalize s.lk.c.info = j at *
    cases i; cases j
    simp only at *
    subst e3 e4 e5 e6 c8
    rw [e7, ht]
  have hnow : s.lk.now ≤ (run cfg s evs).lk.now := hn
  have hg := Lockup.reachable_good h.reachable hv
  change Lockup.Good cfg.lk s.lk.c at hg
  refine ⟨hinfo, hnow, _, Lockup.lockedVal s.lk.c (run cfg s evs).lk.now, ?_, ?_,
    Lockup.lockedVal_mono hg.1 hnow⟩
  · intro e he
    rw [Lockup.getLockedAmount_eq hg.1, he]
  · intro e c he hcv hci
    have hwf : Lockup.WF c := by
      obtain ⟨w1, w2, w3, w4⟩ := hg.1
      refine ⟨by rw [hci]; exact w1, ?_, by rw [hcv, hci]; exact w3, by rw [hcv, hci]; exact w4⟩
      rw [hci]
      simpa only [Lockup.terminatedUnvested, hcv] using w2
    rw [Lockup.getLockedAmount_eq hwf, he, Lockup.lockedVal_congr hcv hci]

end Verif.System
