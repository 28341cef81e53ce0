import Verif.StakingPool.History
import Mathlib.Data.List.Induction

/-!
# Staking pool properties C08, C09, C10, C11: unlock delay, isolation, rewards
-/

namespace Verif.StakingPool

open Verif

/-! ## C08 -/

/-- `a` is locked until epoch `E`. -/
def LockedUntil (w : World) (a : AccountId) (E : Nat) : Prop :=
  E ≤ (getAcc w.pool a).unstakedAvailableEpoch ∧
  (0 < (getAcc w.pool a).unstaked ∨ 0 < (getAcc w.pool a).stakeShares)

theorem step_locked {cfg : Cfg} {s0 : Nat} {w : World} (h : WInv cfg s0 w) {a : AccountId} {E : Nat}
    (hl : LockedUntil w a E) (ev : Ev) (he : w.epoch < E) (he' : E ≤ w.epoch + 4) :
    (step cfg w ev).withdrawn a = w.withdrawn a ∧ LockedUntil (step cfg w ev) a E := by
  have hr := step_rel cfg w ev
  generalize step cfg w ev = w' at hr ⊢
  cases hr with
  | env h1 _ _ h4 => exact ⟨by rw [h4], by unfold LockedUntil; rw [h1]; exact hl⟩
  | callback _ _ _ => exact ⟨rfl, hl⟩
  | @call who att c p effs _ _ hx =>
    have hf := call_facts h.pool hx
    by_cases hw : a = who
    · subst hw
      obtain ⟨k1, k2, _, k4⟩ := exec_epoch h.pool hx
      simp only [mkEnv] at k1 k2 k4
      have hcw : c.isWithdraw = false := by
        cases hcw : c.isWithdraw
        · rfl
        · have := k2 hcw; have := hl.1; omega
      have hp := exec_paid hx hcw
      refine ⟨?_, ?_⟩
      · have := hf.paid
        simp only [mkEnv] at this
        simp only [commit]; omega
      · cases hcu : c.isUnstake
        · obtain ⟨k5, k6⟩ := k4 hcu hcw hl.2
          exact ⟨by simp only [commit]; rw [k5]; exact hl.1, k6⟩
        · have := k1 hcu
          exact ⟨by simp only [commit]; omega, .inl this.2⟩
    · have h1 := hf.ownerAcc a hw
      refine ⟨?_, ⟨?_, ?_⟩⟩
      · simp only [commit]; rw [hf.paidOthers a hw]; rfl
      · simp only [commit]; rw [h1.2.2]; exact hl.1
      · simp only [commit]; have := hl.2; omega

theorem step_epoch_le (cfg : Cfg) (w : World) (ev : Ev) : w.epoch ≤ (step cfg w ev).epoch := by
  have hr := step_rel cfg w ev
  generalize step cfg w ev = w' at hr ⊢
  cases hr with
  | env _ _ _ _ _ _ h => exact h
  | callback => exact Nat.le_refl _
  | call => exact Nat.le_refl _

theorem run_epoch_le (cfg : Cfg) (w : World) (evs : List Ev) : w.epoch ≤ (run cfg w evs).epoch := by
  induction evs generalizing w with
  | nil => exact Nat.le_refl _
  | cons ev t ih => exact Nat.le_trans (step_epoch_le cfg w ev) (ih _)

theorem run_locked {cfg : Cfg} {s0 : Nat} {w : World} (h : WInv cfg s0 w) {a : AccountId} {E : Nat}
    (hl : LockedUntil w a E) (evs : List Ev) (he : (run cfg w evs).epoch < E)
    (he' : E ≤ w.epoch + 4) :
    (run cfg w evs).withdrawn a = w.withdrawn a ∧ LockedUntil (run cfg w evs) a E := by
  induction evs generalizing w with
  | nil => exact ⟨rfl, hl⟩
  | cons ev t ih =>
    have h1 : w.epoch < E := Nat.lt_of_le_of_lt (run_epoch_le cfg w (ev :: t)) he
    obtain ⟨h2, h3⟩ := step_locked h hl ev h1 he'
    obtain ⟨h4, h5⟩ := ih (step_inv h ev) h3 he (by have := step_epoch_le cfg w ev; omega)
    exact ⟨h4.trans h2, h5⟩

/-- **C08 (not earlier).** After a successful `unstake`/`unstake_all` by `a` in epoch `e`, whatever
happens (own calls included), as long as the epoch is below `e + 4` not a single token has been paid
to `a`, and `withdraw`/`withdraw_all` by `a` panic. -/
theorem C08_unstaked_tokens_locked_four_epochs {cfg : Cfg} {w : World} (h : Reachable cfg w)
    {a : AccountId} (ha : a ≠ cfg.self) {d : Nat} {c : Call}
    (hc : c = .unstakeAll ∨ ∃ x, c = .unstake x) {r : Pool × List Eff}
    (hx : exec (mkEnv cfg w a d []) w.pool c = .ok r) (evs : List Ev)
    (he : (run cfg (step cfg w (.call a d c)) evs).epoch < w.epoch + 4) :
    (run cfg (step cfg w (.call a d c)) evs).withdrawn a = w.withdrawn a ∧
    ∀ c', (c' = .withdrawAll ∨ ∃ x, c' = .withdraw x) → ∀ d',
      ∃ msg, exec (mkEnv cfg (run cfg (step cfg w (.call a d c)) evs) a d' [])
        (run cfg (step cfg w (.call a d c)) evs).pool c' = .error msg := by
  obtain ⟨s0, hi⟩ := reachable_inv h
  obtain ⟨p, effs⟩ := r
  have hstep : step cfg w (.call a d c) = commit w a d c p effs := by
    simp only [step, if_neg ha, doCall, hx]
  have hcu : c.isUnstake = true := by rcases hc with rfl | ⟨_, rfl⟩ <;> rfl
  have hcw : c.isWithdraw = false := by rcases hc with rfl | ⟨_, rfl⟩ <;> rfl
  have k1 := (exec_epoch hi.pool hx).1 hcu
  have hf := call_facts hi.pool hx
  have hpaid : paidTo a effs = 0 := by
    have := hf.paid; rw [exec_paid hx hcw] at this; exact this.symm
  have hl : LockedUntil (step cfg w (.call a d c)) a (w.epoch + 4) := by
    rw [hstep]; exact ⟨Nat.le_of_eq k1.1.symm, .inl k1.2⟩
  have hep : (step cfg w (.call a d c)).epoch = w.epoch := by rw [hstep]; rfl
  obtain ⟨h1, h2⟩ := run_locked (step_inv hi _) hl evs he (by rw [hep])
  refine ⟨?_, ?_⟩
  · rw [h1, hstep]; simp only [commit]; rw [hpaid]; rfl
  · intro c' hc' d'
    cases hres : exec (mkEnv cfg (run cfg (step cfg w (.call a d c)) evs) a d' [])
        (run cfg (step cfg w (.call a d c)) evs).pool c' with
    | error m => exact ⟨m, rfl⟩
    | ok r =>
      exfalso
      obtain ⟨p', effs'⟩ := r
      have hw : c'.isWithdraw = true := by rcases hc' with rfl | ⟨_, rfl⟩ <;> rfl
      have h3 := (exec_epoch (run_inv (step_inv hi _) evs).pool hres).2.1 hw
      have h4 := h2.1
      simp only [mkEnv] at h3
      omega

/-- The event is a successful-or-not unstaking call by `a`. -/
def Ev.isUnstakeBy (a : AccountId) : Ev → Prop
  | .call who _ c => who = a ∧ c.isUnstake = true
  | _ => False

theorem step_unlock {cfg : Cfg} {s0 : Nat} {w : World} (h : WInv cfg s0 w) {a : AccountId}
    {ev : Ev} (hn : ¬ ev.isUnstakeBy a) :
    (getAcc (step cfg w ev).pool a).unstakedAvailableEpoch ≤
      (getAcc w.pool a).unstakedAvailableEpoch := by
  have hr := step_rel cfg w ev
  generalize step cfg w ev = w' at hr ⊢
  cases hr with
  | env h1 => rw [h1]
  | callback _ _ _ => exact Nat.le_refl _
  | @call who att c p effs he _ hx =>
    subst he
    by_cases hw : a = who
    · subst hw
      have hcu : c.isUnstake = false := by
        cases hcu : c.isUnstake
        · rfl
        · exact absurd ⟨rfl, hcu⟩ hn
      exact (exec_epoch h.pool hx).2.2.1 hcu
    · exact Nat.le_of_eq ((call_facts h.pool hx).ownerAcc a hw).2.2

theorem run_unlock {cfg : Cfg} {s0 : Nat} {w : World} (h : WInv cfg s0 w) {a : AccountId}
    {evs : List Ev} (hn : ∀ ev ∈ evs, ¬ ev.isUnstakeBy a) :
    (getAcc (run cfg w evs).pool a).unstakedAvailableEpoch ≤
      (getAcc w.pool a).unstakedAvailableEpoch := by
  induction evs generalizing w with
  | nil => exact Nat.le_refl _
  | cons ev t ih =>
    exact Nat.le_trans (ih (step_inv h ev) (fun e he => hn e (by simp [he])))
      (step_unlock h (hn ev (by simp)))

/-- **C08 (not longer).** After a successful unstake by `a` in epoch `e`, if `a` does not unstake
again, then from epoch `e + 4` on the pool reports the balance as available and `withdraw(x)`
succeeds for every positive `x` up to the unstaked balance that the account's liquid tokens cover. -/
theorem C08_available_after_four_epochs {cfg : Cfg} {w : World} (h : Reachable cfg w)
    {a : AccountId} (ha : a ≠ cfg.self) {d : Nat} {c : Call}
    (hc : c = .unstakeAll ∨ ∃ x, c = .unstake x) {r : Pool × List Eff}
    (hx : exec (mkEnv cfg w a d []) w.pool c = .ok r) (evs : List Ev)
    (hn : ∀ ev ∈ evs, ¬ ev.isUnstakeBy a)
    (he : w.epoch + 4 ≤ (run cfg (step cfg w (.call a d c)) evs).epoch) :
    isAccountUnstakedBalanceAvailable (run cfg (step cfg w (.call a d c)) evs).epoch
      (run cfg (step cfg w (.call a d c)) evs).pool a = .ok true ∧
    ∀ x u, Bounded (run cfg (step cfg w (.call a d c)) evs) →
      getAccountUnstakedBalance (run cfg (step cfg w (.call a d c)) evs).epoch
        (run cfg (step cfg w (.call a d c)) evs).pool a = .ok u →
      0 < x → x ≤ u → x ≤ (run cfg (step cfg w (.call a d c)) evs).liquid →
      ∃ r, exec (mkEnv cfg (run cfg (step cfg w (.call a d c)) evs) a 0 [])
        (run cfg (step cfg w (.call a d c)) evs).pool (.withdraw x) = .ok r := by
  obtain ⟨s0, hi⟩ := reachable_inv h
  obtain ⟨p, effs⟩ := r
  have hstep : step cfg w (.call a d c) = commit w a d c p effs := by
    simp only [step, if_neg ha, doCall, hx]
  have hcu : c.isUnstake = true := by rcases hc with rfl | ⟨_, rfl⟩ <;> rfl
  have k1 := (exec_epoch hi.pool hx).1 hcu
  have h1 : (getAcc (step cfg w (.call a d c)).pool a).unstakedAvailableEpoch = w.epoch + 4 := by
    rw [hstep]; exact k1.1
  have h2 := run_unlock (step_inv hi (.call a d c)) hn
  have hr1 : Reachable cfg (run cfg (step cfg w (.call a d c)) evs) :=
    (h.run [.call a d c]).run evs
  have hav : isAccountUnstakedBalanceAvailable (run cfg (step cfg w (.call a d c)) evs).epoch
      (run cfg (step cfg w (.call a d c)) evs).pool a = .ok true := by
    rw [isAvailable_total (run_inv (step_inv hi _) evs).pool]
    simp only [Except.ok.injEq, decide_eq_true_eq]
    omega
  refine ⟨hav, ?_⟩
  intro x u hb hu hx0 hxu hxl
  have hi' := (run_inv (step_inv hi (.call a d c)) evs).pool
  rw [getUnstaked_total hi'] at hu
  cases hu
  obtain ⟨p', effs', hw⟩ := (C07_withdraw_iff hr1 hb a x (getAccount_total hi' _ a)).1.mpr
    ⟨hx0, hxu, by simp only [decide_eq_true_eq]; omega, hxl⟩
  exact ⟨_, hw⟩

/-- The hypotheses of both C08 theorems are met: Alice unstakes in epoch 8; in epoch 11 she is still
locked, in epoch 12 she can withdraw. -/
example :
    let w1 := step demoCfg demo (.call "alice.near" 0 (.unstake 1000))
    let soon := [Ev.epochs 3, .call "alice.near" 0 .withdrawAll, .call "alice.near" 0 (.stake 500)]
    let late := [Ev.epochs 4, .call "alice.near" 50 .deposit, .unlock 1000000]
    Reachable demoCfg demo ∧ "alice.near" ≠ demoCfg.self ∧
    (exec (mkEnv demoCfg demo "alice.near" 0 []) demo.pool (.unstake 1000)).isOk = true ∧
    (run demoCfg w1 soon).epoch < demo.epoch + 4 ∧
    (∀ ev ∈ late, ¬ ev.isUnstakeBy "alice.near") ∧ demo.epoch + 4 ≤ (run demoCfg w1 late).epoch ∧
    Bounded (run demoCfg w1 late) ∧ 13347 ≤ (run demoCfg w1 late).liquid ∧
    getAccountUnstakedBalance 12 (run demoCfg w1 late).pool "alice.near" = .ok 13397 := by
  refine ⟨demo_reachable, by decide +kernel, by decide +kernel, by decide +kernel,
    by simp [Ev.isUnstakeBy, Call.isUnstake], by decide +kernel, ⟨?_, ?_, ?_⟩, by decide +kernel,
    by decide +kernel⟩ <;> decide +kernel

/-! ## C09 -/

theorem step_owner {cfg : Cfg} {s0 : Nat} {w : World} (h : WInv cfg s0 w) (ev : Ev) :
    (step cfg w ev).pool.ownerId = w.pool.ownerId := by
  have hr := step_rel cfg w ev
  generalize step cfg w ev = w' at hr ⊢
  cases hr with
  | env h1 => rw [h1]
  | callback => rfl
  | call _ _ hx => exact (call_facts h.pool hx).owner

theorem run_owner {cfg : Cfg} {s0 : Nat} {w : World} (h : WInv cfg s0 w) (evs : List Ev) :
    (run cfg w evs).pool.ownerId = w.pool.ownerId := by
  induction evs generalizing w with
  | nil => rfl
  | cons ev t ih => exact (ih (step_inv h ev)).trans (step_owner h ev)

theorem step_withdrawn {cfg : Cfg} {s0 : Nat} {w : World} (h : WInv cfg s0 w) {ev : Ev}
    {a : AccountId} (hn : ¬ ev.isCallBy a) :
    (step cfg w ev).withdrawn a = w.withdrawn a ∧ (step cfg w ev).deposited a = w.deposited a := by
  have hr := step_rel cfg w ev
  generalize step cfg w ev = w' at hr ⊢
  cases hr with
  | env _ _ h3 h4 => rw [h3, h4]; exact ⟨rfl, rfl⟩
  | callback => exact ⟨rfl, rfl⟩
  | @call who att c p effs he _ hx =>
    subst he
    simp only [Ev.isCallBy] at hn
    have := (call_facts h.pool hx).paidOthers a (fun e => hn e.symm)
    simp only [commit]
    rw [this, if_neg (fun e => hn e.symm)]
    exact ⟨rfl, rfl⟩

theorem run_nonowner {cfg : Cfg} {s0 : Nat} {w : World} (h : WInv cfg s0 w) {evs : List Ev}
    {a : AccountId} (ho : a ≠ w.pool.ownerId) (hn : ∀ ev ∈ evs, ¬ ev.isCallBy a) :
    getAcc (run cfg w evs).pool a = getAcc w.pool a := by
  induction evs generalizing w with
  | nil => rfl
  | cons ev t ih =>
    have h1 := (step_shares_mono h (hn ev (by simp))).2.2.2 ho
    exact (ih (step_inv h ev) (by rw [step_owner h]; exact ho)
      (fun e he => hn e (by simp [he]))).trans h1

theorem run_withdrawn {cfg : Cfg} {s0 : Nat} {w : World} (h : WInv cfg s0 w) {evs : List Ev}
    {a : AccountId} (hn : ∀ ev ∈ evs, ¬ ev.isCallBy a) :
    (run cfg w evs).withdrawn a = w.withdrawn a := by
  induction evs generalizing w with
  | nil => rfl
  | cons ev t ih =>
    exact (ih (step_inv h ev) (fun e he => hn e (by simp [he]))).trans
      (step_withdrawn h (hn ev (by simp))).1

/-- **C09.** Whatever others do over any history, the stored record of an account that makes no call
(unstaked balance, shares, unlock epoch) is unchanged; the pool owner's record may only gain shares.
And a successful call pays nobody but its caller. -/
theorem C09_only_the_caller_changes {cfg : Cfg} {w : World} (h : Reachable cfg w)
    (a : AccountId) (evs : List Ev) (hn : ∀ ev ∈ evs, ¬ ev.isCallBy a) :
    (a ≠ getOwnerId w.pool → getAcc (run cfg w evs).pool a = getAcc w.pool a) ∧
    (getAcc (run cfg w evs).pool a).unstaked = (getAcc w.pool a).unstaked ∧
    (getAcc (run cfg w evs).pool a).unstakedAvailableEpoch =
      (getAcc w.pool a).unstakedAvailableEpoch ∧
    (getAcc w.pool a).stakeShares ≤ (getAcc (run cfg w evs).pool a).stakeShares ∧
    (run cfg w evs).withdrawn a = w.withdrawn a := by
  obtain ⟨s0, hi⟩ := reachable_inv h
  obtain ⟨h1, h2, h3⟩ := run_bystander hi hn
  exact ⟨fun ho => run_nonowner hi ho hn, h2, h3, h1, run_withdrawn hi hn⟩

/-- **C09 (nobody can freeze funds).** If `a` could withdraw `x` as far as its own record goes
(`x` at most its unstaked balance, unlock epoch reached), then after any history of calls by others
(the owner's administrative calls included) it can still withdraw `x`, provided the pool has the
liquid tokens. -/
theorem C09_funds_cannot_be_frozen {cfg : Cfg} {w : World} (h : Reachable cfg w)
    (a : AccountId) {acc : HumanAccount} (hacc : getAccount w.epoch w.pool a = .ok acc)
    {x : Nat} (h0 : 0 < x) (hx : x ≤ acc.unstakedBalance) (hcw : acc.canWithdraw = true)
    (evs : List Ev) (hn : ∀ ev ∈ evs, ¬ ev.isCallBy a) (hb : Bounded (run cfg w evs))
    (hl : x ≤ (run cfg w evs).liquid) :
    ∃ r, exec (mkEnv cfg (run cfg w evs) a 0 []) (run cfg w evs).pool (.withdraw x) = .ok r := by
  obtain ⟨s0, hi⟩ := reachable_inv h
  have hi' := run_inv hi evs
  obtain ⟨h1, h2, h3⟩ := run_bystander hi hn
  rw [getAccount_total hi.pool] at hacc
  cases hacc
  simp only [decide_eq_true_eq] at hcw
  simp only at hx
  have := run_epoch_le cfg w evs
  obtain ⟨p', effs', hw⟩ := (C07_withdraw_iff (h.run evs) hb a x
    (getAccount_total hi'.pool _ a)).1.mpr
    ⟨h0, by simp only; omega, by simp only [decide_eq_true_eq]; omega, hl⟩
  exact ⟨_, hw⟩

example :
    let evs := [Ev.call "owner.near" 0 .pauseStaking, .call "owner.near" 0 (.updateStakingKey "bad"),
      .call "owner.near" 0 (.updateRewardFeeFraction ⟨1, 1⟩), .epochs 1, .unlock 100]
    Reachable demoCfg demo ∧ (∀ ev ∈ evs, ¬ ev.isCallBy "bob.near") ∧
    "bob.near" ≠ getOwnerId demo.pool ∧
    getAccount demo.epoch demo.pool "bob.near" = .ok ⟨"bob.near", 5, 0, true⟩ ∧
    Bounded (run demoCfg demo evs) ∧ 5 ≤ (run demoCfg demo evs).liquid ∧
    isStakingPaused (run demoCfg demo evs).pool = true := by
  refine ⟨demo_reachable, by simp [Ev.isCallBy], by decide +kernel, by decide +kernel, ⟨?_, ?_, ?_⟩,
    by decide +kernel, by decide +kernel⟩ <;> decide +kernel

/-! ## C10 -/

/-- **C10.** A `ping` in a new epoch finds `r` more tokens than accounted. With fee fraction `n/d`
let `fee = floor(r*n/d)`. Then the total stake grows by exactly `r`; only the owner gets new shares
`m`; these are worth at most `fee` at the new price, while one share more would be worth more than
`fee`; and the new price is at least the price that results from giving `r - fee` to the existing
shares. -/
theorem C10_owner_cut_bounded {cfg : Cfg} {w : World} (h : Reachable cfg w) (a : AccountId)
    (hne : w.pool.lastEpochHeight ≠ w.epoch) {p : Pool} {effs : List Eff}
    (hx : exec (mkEnv cfg w a 0 []) w.pool .ping = .ok (p, effs)) :
    ∃ r m,
      r + w.pool.lastTotalBalance = w.liquid + w.locked ∧
      p.totalStakedBalance = w.pool.totalStakedBalance + r ∧
      p.totalStakeShares = w.pool.totalStakeShares + m ∧
      (∀ b, b ≠ getOwnerId w.pool → getAcc p b = getAcc w.pool b) ∧
      (getAcc p (getOwnerId w.pool)).stakeShares =
        (getAcc w.pool (getOwnerId w.pool)).stakeShares + m ∧
      (getAcc p (getOwnerId w.pool)).unstaked = (getAcc w.pool (getOwnerId w.pool)).unstaked ∧
      p.totalStakedBalance * m / p.totalStakeShares ≤
        r * w.pool.rewardFee.numerator / w.pool.rewardFee.denominator ∧
      r * w.pool.rewardFee.numerator / w.pool.rewardFee.denominator * (p.totalStakeShares + 1) <
        p.totalStakedBalance * (m + 1) ∧
      (w.pool.totalStakedBalance + r -
          r * w.pool.rewardFee.numerator / w.pool.rewardFee.denominator) * p.totalStakeShares ≤
        p.totalStakedBalance * w.pool.totalStakeShares := by
  obtain ⟨s0, hi⟩ := reachable_inv h
  have hT := hi.pool.T_pos
  have hS := hi.pool.S_pos
  simp only [exec, ping, bind_ok, notPayable_ok, pure_ok, Prod.exists, Prod.mk.injEq] at hx
  obtain ⟨_, h0, s1, b, h1, effs1, h2, rfl, rfl⟩ := hx
  have hpf := ping_facts hi.pool h1
  rw [internalPing_ok] at h1
  rcases h1 with ⟨h1, _⟩ | ⟨_, _, _, h3, h4, s2, h5, rfl⟩
  · exact absurd h1 hne
  · simp only [mkEnv, Nat.add_zero, Nat.sub_zero] at h3 h4 h5
    refine ⟨w.locked + w.liquid - w.pool.lastTotalBalance, ?_⟩
    unfold distributeIf at h5
    split at h5
    · rw [distribute_ok] at h5
      obtain ⟨fee, n, hm, hle, _, hns, _, rfl⟩ := h5
      rw [multiply_ok] at hm
      rw [numSharesDown_ok] at hns
      obtain ⟨_, _, hfee, _⟩ := hm
      obtain ⟨_, _, hn, _⟩ := hns
      simp only at hfee hn
      rw [Nat.mul_comm] at hfee
      rw [← hfee]
      have hTT := distributed_T { w.pool with lastEpochHeight := w.epoch } n hle
      have hSS := distributed_S { w.pool with lastEpochHeight := w.epoch } fee n
        (w.locked + w.liquid - w.pool.lastTotalBalance)
      have hacc := distributed_getAcc { w.pool with lastEpochHeight := w.epoch } fee n
        (w.locked + w.liquid - w.pool.lastTotalBalance) w.pool.ownerId
      have hsum : w.locked + w.liquid - w.pool.lastTotalBalance + w.pool.lastTotalBalance =
          w.liquid + w.locked := by omega
      have hown : (getAcc (distributed { w.pool with lastEpochHeight := w.epoch } fee n
          (w.locked + w.liquid - w.pool.lastTotalBalance)) w.pool.ownerId).stakeShares =
          (getAcc w.pool w.pool.ownerId).stakeShares + n := by
        rw [hacc]
        simp only [true_and]
        split
        · rfl
        · have : n = 0 := by omega
          rw [this]; rfl
      simp only [mkEnv] at hpf ⊢
      simp only at hTT hSS
      rw [hTT, hSS]
      have hown' : (getAcc (distributed { w.pool with lastEpochHeight := w.epoch } fee n
          (w.locked + w.liquid - w.pool.lastTotalBalance)) (getOwnerId w.pool)).stakeShares =
          (getAcc w.pool (getOwnerId w.pool)).stakeShares + n := hown
      refine ⟨n, hsum, rfl, rfl, hpf.others, hown', hpf.unstaked _, ?_⟩
      clear hown hown' hacc hpf hsum
      generalize w.locked + w.liquid - w.pool.lastTotalBalance = r at *
      generalize w.pool.totalStakedBalance = T at *
      generalize w.pool.totalStakeShares = S at *
      have hX : 0 < T + (r - fee) := by omega
      have hn1 : (T + (r - fee)) * n ≤ S * fee := by
        rw [hn, Nat.mul_comm]; exact Nat.div_mul_le_self _ _
      have hn2 : S * fee < (T + (r - fee)) * (n + 1) := by
        rw [hn]; exact Nat.lt_mul_div_succ _ hX
      have hTr : T + r = (T + (r - fee)) + fee := by omega
      have hc := Nat.mul_comm fee n
      refine ⟨?_, ?_, ?_⟩
      · refine Nat.le_of_lt_succ (Nat.div_lt_of_lt_mul ?_)
        rw [hTr]
        generalize T + (r - fee) = X at *
        rw [Nat.add_mul, Nat.add_mul, Nat.mul_succ, Nat.mul_succ]
        omega
      · rw [hTr]
        generalize T + (r - fee) = X at *
        rw [Nat.add_mul, Nat.mul_add, Nat.mul_add, Nat.mul_comm fee S, Nat.mul_add fee n 1]
        omega
      · have : T + r - fee = T + (r - fee) := by omega
        rw [this, hTr]
        generalize T + (r - fee) = X at *
        rw [Nat.mul_add, Nat.add_mul, Nat.mul_comm fee S]
        omega
    · rename_i hr0
      rw [pure_ok] at h5
      subst h5
      have hr : w.locked + w.liquid - w.pool.lastTotalBalance = 0 := by omega
      rw [hr]
      refine ⟨0, by omega, rfl, rfl, hpf.others, rfl, rfl, by simp, ?_, ?_⟩
      · simp only [Nat.zero_mul, Nat.zero_div]; simpa using hT
      · simp

/-- Concrete distribution with a fee of 10% and 12345 yocto of rewards. -/
example :
    let w := run demoCfg demo [.epochs 1, .reward 12345]
    Reachable demoCfg w ∧ w.pool.lastEpochHeight ≠ w.epoch ∧
    (exec (mkEnv demoCfg w "bob.near" 0 []) w.pool .ping).isOk = true :=
  ⟨demo_reachable.run _, by decide +kernel, by decide +kernel⟩

/-! ## C11 -/

/-- **C11 (once per epoch).** After a successful call that touches rewards (every method except
`vote` and the stake callback), every later `ping` in the same epoch changes nothing and creates no
promise, even if more tokens arrived in between. -/
theorem C11_second_ping_does_nothing {cfg : Cfg} {w : World} (h : Reachable cfg w)
    {a : AccountId} (ha : a ≠ cfg.self) {d : Nat} {c : Call} (hc : c.pings = true)
    {r : Pool × List Eff} (hx : exec (mkEnv cfg w a d []) w.pool c = .ok r)
    (evs : List Ev) (he : (run cfg (step cfg w (.call a d c)) evs).epoch = w.epoch)
    (b : AccountId) :
    exec (mkEnv cfg (run cfg (step cfg w (.call a d c)) evs) b 0 [])
      (run cfg (step cfg w (.call a d c)) evs).pool .ping =
    .ok ((run cfg (step cfg w (.call a d c)) evs).pool, []) := by
  obtain ⟨s0, hi⟩ := reachable_inv h
  obtain ⟨p, effs⟩ := r
  have hstep : step cfg w (.call a d c) = commit w a d c p effs := by
    simp only [step, if_neg ha, doCall, hx]
  have h1 : w.epoch ≤ (step cfg w (.call a d c)).pool.lastEpochHeight := by
    rw [hstep]; exact Nat.le_of_eq (exec_lastEpoch hi.pool hx hc).symm
  have mono : ∀ (l : List Ev) (v : World), WInv cfg s0 v →
      v.pool.lastEpochHeight ≤ (run cfg v l).pool.lastEpochHeight := by
    intro l
    induction l with
    | nil => intro v _; exact Nat.le_refl _
    | cons ev t ih =>
      intro v hv
      refine Nat.le_trans ?_ (ih _ (step_inv hv ev))
      have hr := step_rel cfg v ev
      generalize step cfg v ev = v' at hr ⊢
      cases hr with
      | env h1 => rw [h1]
      | callback => exact Nat.le_refl _
      | call _ _ hx =>
        rcases (call_facts hv.pool hx).lastEpoch with h | h
        · exact Nat.le_of_eq h.symm
        · have := hv.lastEpoch
          simp only [commit, h, mkEnv]; exact this
  have h2 := mono evs _ (step_inv hi (.call a d c))
  have h3 := (run_inv (step_inv hi (.call a d c)) evs).lastEpoch
  have h4 : (run cfg (step cfg w (.call a d c)) evs).pool.lastEpochHeight =
      (run cfg (step cfg w (.call a d c)) evs).epoch := by omega
  simp only [exec, ping, bind_ok, notPayable_ok, pure_ok, Prod.exists, Prod.mk.injEq]
  exact ⟨(), rfl, _, false, internalPing_ok.mpr (.inl ⟨h4, rfl, rfl⟩), [], rfl, rfl, rfl⟩

/-- Claims of all delegators and of the unowned shares: total stake plus all unstaked balances. -/
def claims (s : Pool) : Nat := s.totalStakedBalance + sumUnstaked s

theorem step_tokens {cfg : Cfg} {s0 : Nat} {w : World} (h : WInv cfg s0 w) (ev : Ev) :
    (step cfg w ev).liquid + (step cfg w ev).locked + (step cfg w ev).totalWithdrawn +
      w.totalDeposited =
    w.liquid + w.locked + w.totalWithdrawn + (step cfg w ev).totalDeposited + inflow [ev] := by
  have hr := step_rel cfg w ev
  generalize step cfg w ev = w' at hr ⊢
  cases hr with
  | env h1 _ _ _ h5 h6 _ h8 => omega
  | callback he =>
    subst he; simp [inflow]
  | call he _ hx =>
    subst he
    have := (call_facts h.pool hx).paidLe
    simp only [mkEnv] at this
    simp only [commit, inflow]
    omega

theorem inflow_append (l1 l2 : List Ev) : inflow (l1 ++ l2) = inflow l1 + inflow l2 := by
  induction l1 with
  | nil => simp [inflow]
  | cons ev t ih => cases ev <;> simp [inflow, ih] <;> omega

theorem run_tokens {cfg : Cfg} {s0 : Nat} {w : World} (h : WInv cfg s0 w) (evs : List Ev) :
    (run cfg w evs).liquid + (run cfg w evs).locked + (run cfg w evs).totalWithdrawn +
      w.totalDeposited =
    w.liquid + w.locked + w.totalWithdrawn + (run cfg w evs).totalDeposited + inflow evs := by
  induction evs generalizing w with
  | nil => simp [run, inflow]
  | cons ev t ih =>
    have h1 := step_tokens h ev
    have h2 := ih (step_inv h ev)
    have h3 := inflow_append [ev] t
    simp only [List.cons_append, List.nil_append] at h3
    simp only [run]
    omega

theorem snapshot_history {cfg : Cfg} {w0 : World} {s0 : Nat} (hi : WInv cfg s0 w0)
    (hfresh : w0.pool.lastTotalBalance = w0.liquid + w0.locked)
    (hep : w0.pool.lastEpochHeight = w0.epoch)
    (hd0 : w0.totalDeposited = 0) (hw0 : w0.totalWithdrawn = 0) (evs : List Ev) :
    ∃ pre post, evs = pre ++ post ∧
      (run cfg w0 evs).pool.lastEpochHeight = (run cfg w0 pre).epoch ∧
      (run cfg w0 evs).pool.lastTotalBalance + (run cfg w0 evs).totalWithdrawn =
        w0.liquid + w0.locked + (run cfg w0 evs).totalDeposited + inflow pre := by
  induction evs using List.reverseRecOn with
  | nil => exact ⟨[], [], rfl, hep, by simp [run, inflow, hd0, hw0, hfresh]⟩
  | append_singleton l ev ih =>
    obtain ⟨pre, post, hl, hE, hB⟩ := ih
    have hil := run_inv hi l
    have htok := run_tokens hi l
    rw [run_append]
    simp only [run]
    have hr := step_rel cfg (run cfg w0 l) ev
    have hstepE : step cfg (run cfg w0 l) ev = run cfg w0 (l ++ [ev]) := by
      rw [run_append]; rfl
    generalize step cfg (run cfg w0 l) ev = w' at hr hstepE ⊢
    cases hr with
    | env h1 _ _ _ h5 h6 _ h8 =>
      refine ⟨pre, post ++ [ev], by rw [hl]; simp, by rw [h1]; exact hE, ?_⟩
      rw [h1, h5, h6]; exact hB
    | callback => exact ⟨pre, post ++ [ev], by rw [hl]; simp, hE, hB⟩
    | @call who att c _ _ he _ hx =>
      subst he
      have hle := (call_facts hil.pool hx).paidLe
      rcases exec_snapshot hil.pool hx with ⟨h1, h2⟩ | ⟨h1, h1', h2⟩
      · refine ⟨pre, post ++ [.call who att c], by rw [hl]; simp, ?_, ?_⟩
        · simp only [commit]; rw [h1]; exact hE
        · simp only [commit]
          simp only [mkEnv] at h2
          omega
      · refine ⟨l ++ [.call who att c], [], by simp, ?_, ?_⟩
        · rw [← hstepE]; exact h1
        · rw [inflow_append]
          simp only [commit, inflow]
          simp only [mkEnv] at h2
          omega

/-- **C11 (every token is distributed exactly once).** At any time, the claims of the delegators
plus the guarantee fund plus everything paid out equal, up to one yocto per stake/unstake operation,
the initial balance plus all deposits plus all tokens that came in from outside up to the last
distribution (which happened in epoch `lastEpochHeight`). -/
theorem C11_rewards_distributed_exactly_once {cfg : Cfg} {w0 : World} (h : Started cfg w0)
    (evs : List Ev) :
    ∃ pre post, evs = pre ++ post ∧
      (run cfg w0 evs).pool.lastEpochHeight = (run cfg w0 pre).epoch ∧
      w0.liquid + w0.locked + (run cfg w0 evs).totalDeposited + inflow pre ≤
        claims (run cfg w0 evs).pool + guaranteeFund + (run cfg w0 evs).totalWithdrawn ∧
      claims (run cfg w0 evs).pool + guaranteeFund + (run cfg w0 evs).totalWithdrawn ≤
        w0.liquid + w0.locked + (run cfg w0 evs).totalDeposited + inflow pre +
          (run cfg w0 evs).roundings := by
  have hcopy := h
  obtain ⟨b, hb, hi, hbal, hd0, hw0, hr0⟩ := started_inv h
  have hfresh : w0.pool.lastTotalBalance = w0.liquid + w0.locked ∧
      w0.pool.lastEpochHeight = w0.epoch := by
    obtain ⟨dep, owner, key, fee, bal, ep, p, effs, _, hlt, hn, rfl⟩ := hcopy
    simp only [new, bind_ok, require_ok, subU_ok, Fee.assertValid_ok, Fee.decode_ok, pure_ok,
      Prod.mk.injEq, initEnv] at hn
    obtain ⟨_, _, _, hd, _, _, _, hf, _, _, _, ⟨h1, rfl⟩, _, _, effs1, h2, rfl, rfl⟩ := hn
    exact ⟨rfl, rfl⟩
  obtain ⟨pre, post, h1, h2, h3⟩ := snapshot_history hi hfresh.1 hfresh.2 hd0 hw0 evs
  have h4 := (run_inv hi evs).solv
  have h5 := (run_inv hi evs).solvLow
  refine ⟨pre, post, h1, h2, ?_, ?_⟩ <;> unfold claims <;> omega

/-- **C11 (nothing is left undistributed).** Right after a distribution, all tokens on the account
are accounted: claims plus guarantee fund equal the tokens on the account up to one yocto per
stake/unstake operation. -/
theorem C11_distribution_is_complete {cfg : Cfg} {w : World} (h : Reachable cfg w)
    {a : AccountId} (ha : a ≠ cfg.self) (hne : w.pool.lastEpochHeight ≠ w.epoch) {d : Nat}
    {c : Call} (hc : c.pings = true) {r : Pool × List Eff}
    (hx : exec (mkEnv cfg w a d []) w.pool c = .ok r) :
    let w' := step cfg w (.call a d c)
    w'.liquid + w'.locked ≤ claims w'.pool + guaranteeFund ∧
    claims w'.pool + guaranteeFund ≤ w'.liquid + w'.locked + w'.roundings := by
  intro w'
  obtain ⟨s0, hi⟩ := reachable_inv h
  obtain ⟨p, effs⟩ := r
  have hstep : w' = commit w a d c p effs := by
    simp only [w', step, if_neg ha, doCall, hx]
  have hi' : WInv cfg s0 w' := step_inv hi _
  have h4 := hi'.solv
  have h5 := hi'.solvLow
  have hle := (call_facts hi.pool hx).paidLe
  have h6 := exec_lastEpoch hi.pool hx hc
  have h7 : w'.pool.lastTotalBalance = w'.liquid + w'.locked := by
    rw [hstep]
    simp only [commit]
    rcases exec_snapshot hi.pool hx with ⟨h1, h2⟩ | ⟨h1, h1', h2⟩
    · exact absurd (h1.symm.trans h6) hne
    · simp only [mkEnv] at h2 hle
      omega
  unfold claims
  omega

/-- The hypotheses of the C11 theorems are met. -/
example :
    let w := run demoCfg demo [.epochs 1, .reward 12345]
    Reachable demoCfg w ∧ Started demoCfg demo0 ∧ w.pool.lastEpochHeight ≠ w.epoch ∧
    (exec (mkEnv demoCfg w "bob.near" 3 []) w.pool .deposit).isOk = true ∧
    (run demoCfg (step demoCfg w (.call "bob.near" 3 .deposit)) [.reward 99, .income 7]).epoch =
      w.epoch :=
  ⟨demo_reachable.run _, demo0_started, by decide +kernel, by decide +kernel, by decide +kernel⟩

end Verif.StakingPool
