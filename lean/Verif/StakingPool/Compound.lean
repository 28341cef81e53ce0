import Verif.StakingPool.Props9

/-!
# Reward distributions of a history (helpers for C110)
-/

namespace Verif.StakingPool

open Verif

/-- One distribution of rewards: the total stake just before it, the reward found, and the fee. -/
structure Distribution where
  stake : Nat
  reward : Nat
  fee : Nat
deriving DecidableEq

/-- The distribution made by the next event, if the event makes one, that is if it moves the pool's
epoch mark: everything on the account beyond the last accounted total is reward, and the owner's part of
it is the fee fraction in force. -/
def distributionOf (cfg : Cfg) (w : World) (ev : Ev) : List Distribution :=
  if (step cfg w ev).pool.lastEpochHeight = w.pool.lastEpochHeight then []
  else
    [{ stake := w.pool.totalStakedBalance
       reward := w.liquid + w.locked - w.pool.lastTotalBalance
       fee := (w.liquid + w.locked - w.pool.lastTotalBalance) * w.pool.rewardFee.numerator /
         w.pool.rewardFee.denominator }]

/-- All distributions of a history, in order. -/
def distributions (cfg : Cfg) (w : World) : List Ev → List Distribution
  | [] => []
  | ev :: t => distributionOf cfg w ev ++ distributions cfg (step cfg w ev) t

/-- Numerator of the compound growth factor: what the stake `T` becomes, `T + r - fee`, multiplied over
all distributions. -/
def grown (l : List Distribution) : Nat := (l.map fun d => d.stake + d.reward - d.fee).prod

/-- Denominator of the compound growth factor. -/
def base (l : List Distribution) : Nat := (l.map (·.stake)).prod

theorem ping_growth {s0 : Nat} {e : Env} {s s1 : Pool} {b : Bool} (hi : PoolInv s0 s)
    (h : internalPing e s = .ok (s1, b)) (hne : s1.lastEpochHeight ≠ s.lastEpochHeight) :
    let r := e.accountLockedBalance + e.accountBalance - e.attachedDeposit - s.lastTotalBalance
    (s.totalStakedBalance + r - r * s.rewardFee.numerator / s.rewardFee.denominator) *
      s1.totalStakeShares ≤ s1.totalStakedBalance * s.totalStakeShares := by
  rw [internalPing_ok] at h
  rcases h with ⟨_, rfl, _⟩ | ⟨_, _, _, _, _, s2, h5, rfl⟩
  · exact absurd rfl hne
  · intro r
    have hr' : e.accountLockedBalance + e.accountBalance - e.attachedDeposit - s.lastTotalBalance = r :=
      rfl
    rw [hr'] at h5
    clear_value r
    unfold distributeIf at h5
    split at h5
    · rw [distribute_ok] at h5
      obtain ⟨fee, n, hm, hle, _, hns, _, rfl⟩ := h5
      rw [multiply_ok] at hm
      rw [numSharesDown_ok] at hns
      obtain ⟨_, _, hfee, _⟩ := hm
      obtain ⟨_, _, hn, _⟩ := hns
      simp only at hfee hn
      rw [Nat.mul_comm] at hfee
      rw [← hfee]
      have hTT := distributed_T { s with lastEpochHeight := e.epochHeight } n hle
      have hSS := distributed_S { s with lastEpochHeight := e.epochHeight } fee n r
      simp only at hTT hSS
      show _ * (distributed { s with lastEpochHeight := e.epochHeight } fee n r).totalStakeShares ≤
        (distributed { s with lastEpochHeight := e.epochHeight } fee n r).totalStakedBalance * _
      rw [hTT, hSS]
      generalize s.totalStakedBalance = T at *
      generalize s.totalStakeShares = S at *
      have hn1 : (T + (r - fee)) * n ≤ S * fee := by
        rw [hn, Nat.mul_comm]; exact Nat.div_mul_le_self _ _
      have hTr : T + r = (T + (r - fee)) + fee := by omega
      have : T + r - fee = T + (r - fee) := by omega
      rw [this, hTr]
      generalize T + (r - fee) = X at *
      rw [Nat.mul_add, Nat.add_mul, Nat.mul_comm fee S]
      omega
    · rename_i hr0
      rw [pure_ok] at h5
      subst h5
      have hr : r = 0 := by omega
      subst hr
      simp

theorem step_growth {cfg : Cfg} {s0 : Nat} {w : World} (h : WInv cfg s0 w) (ev : Ev) :
    w.pool.totalStakedBalance * grown (distributionOf cfg w ev) *
        (step cfg w ev).pool.totalStakeShares ≤
      (step cfg w ev).pool.totalStakedBalance * w.pool.totalStakeShares *
        base (distributionOf cfg w ev) := by
  unfold distributionOf
  split
  · simp only [grown, base, List.map_nil, List.prod_nil, Nat.mul_one]
    exact step_price h ev
  · rename_i hne
    have hr := step_rel cfg w ev
    generalize step cfg w ev = w' at hr hne ⊢
    simp only [grown, base, List.map_cons, List.map_nil, List.prod_cons, List.prod_nil, Nat.mul_one]
    cases hr with
    | env h1 => exact absurd (by rw [h1]) hne
    | callback => exact absurd rfl hne
    | @call who att c p effs _ _ hx =>
      simp only [commit] at hne ⊢
      obtain ⟨s1, hp, hb⟩ := exec_cases hx
      have hpf := pingRel_facts h.pool hp
      have hbf := body_facts hpf.inv (.inl rfl) hb
      have he1 : p.lastEpochHeight = s1.lastEpochHeight := by
        cases hb with
        | idle => rfl
        | admin => rfl
        | deposit hd _ => exact (deposit_facts hpf.inv hd).1.lastEpoch
        | depositStake hd hs _ =>
          have hd' := (deposit_facts hpf.inv hd).1
          exact ((stake_facts hd'.inv hs).1.lastEpoch).trans hd'.lastEpoch
        | withdraw _ _ hw _ => exact (withdraw_facts hpf.inv hw).1.lastEpoch
        | stake _ _ hs _ => exact (stake_facts hpf.inv hs).1.lastEpoch
        | unstake _ _ hu _ => exact (unstake_facts hpf.inv hu).1.lastEpoch
      rw [he1] at hne
      rcases hp with rfl | ⟨b, hp⟩
      · exact absurd rfl hne
      · have hg := ping_growth h.pool hp hne
        have hr : w.locked + (w.liquid + att) - att - w.pool.lastTotalBalance =
            w.liquid + w.locked - w.pool.lastTotalBalance := by omega
        simp only [mkEnv, hr] at hg
        generalize w.liquid + w.locked - w.pool.lastTotalBalance = r at *
        generalize w.pool.totalStakedBalance + r -
          r * w.pool.rewardFee.numerator / w.pool.rewardFee.denominator = g at *
        have hpr := hbf.price
        unfold PriceLe at hpr
        have h1 := Nat.mul_le_mul_right p.totalStakeShares hg
        have h2 := Nat.mul_le_mul_right w.pool.totalStakeShares hpr
        have h3 : s1.totalStakeShares * (g * p.totalStakeShares) ≤
            s1.totalStakeShares * (p.totalStakedBalance * w.pool.totalStakeShares) := by
          calc _ = g * s1.totalStakeShares * p.totalStakeShares := by ring
            _ ≤ _ := h1
            _ = s1.totalStakedBalance * p.totalStakeShares * w.pool.totalStakeShares := by ring
            _ ≤ _ := h2
            _ = _ := by ring
        have h4 := Nat.le_of_mul_le_mul_left h3 hpf.inv.S_pos
        calc _ = w.pool.totalStakedBalance * (g * p.totalStakeShares) := by ring
          _ ≤ _ := Nat.mul_le_mul_left _ h4
          _ = _ := by ring

theorem grown_append (l1 l2 : List Distribution) : grown (l1 ++ l2) = grown l1 * grown l2 := by
  simp [grown]

theorem base_append (l1 l2 : List Distribution) : base (l1 ++ l2) = base l1 * base l2 := by
  simp [base]

theorem base_pos {cfg : Cfg} {s0 : Nat} {w : World} (h : WInv cfg s0 w) (evs : List Ev) :
    0 < base (distributions cfg w evs) := by
  induction evs generalizing w with
  | nil => simp [distributions, base]
  | cons ev t ih =>
    rw [distributions, base_append]
    refine Nat.mul_pos ?_ (ih (step_inv h ev))
    unfold distributionOf
    split
    · simp [base]
    · simpa [base] using h.pool.T_pos

theorem run_growth {cfg : Cfg} {s0 : Nat} {w : World} (h : WInv cfg s0 w) (evs : List Ev) :
    w.pool.totalStakedBalance * grown (distributions cfg w evs) *
        (run cfg w evs).pool.totalStakeShares ≤
      (run cfg w evs).pool.totalStakedBalance * w.pool.totalStakeShares *
        base (distributions cfg w evs) := by
  induction evs generalizing w with
  | nil => simp [run, distributions, grown, base]
  | cons ev t ih =>
    have h1 := step_growth h ev
    have h2 := ih (step_inv h ev)
    have hS := (step_inv h ev).pool.S_pos
    rw [distributions, grown_append, base_append]
    simp only [run]
    generalize grown (distributionOf cfg w ev) = g at *
    generalize base (distributionOf cfg w ev) = b at *
    generalize grown (distributions cfg (step cfg w ev) t) = G at *
    generalize base (distributions cfg (step cfg w ev) t) = B at *
    generalize (run cfg (step cfg w ev) t).pool.totalStakedBalance = T' at *
    generalize (run cfg (step cfg w ev) t).pool.totalStakeShares = S' at *
    generalize (step cfg w ev).pool.totalStakedBalance = T1 at *
    generalize (step cfg w ev).pool.totalStakeShares = S1 at *
    refine Nat.le_of_mul_le_mul_left ?_ hS
    calc _ = w.pool.totalStakedBalance * g * S1 * (G * S') := by ring
      _ ≤ T1 * w.pool.totalStakeShares * b * (G * S') := Nat.mul_le_mul_right _ h1
      _ = T1 * G * S' * (w.pool.totalStakeShares * b) := by ring
      _ ≤ T' * S1 * B * (w.pool.totalStakeShares * b) := Nat.mul_le_mul_right _ h2
      _ = _ := by ring

theorem step_found {cfg : Cfg} {s0 : Nat} {w : World} (h : WInv cfg s0 w) (ev : Ev) :
    ((distributionOf cfg w ev).map (·.reward)).sum +
        ((step cfg w ev).liquid + (step cfg w ev).locked - (step cfg w ev).pool.lastTotalBalance) =
      (w.liquid + w.locked - w.pool.lastTotalBalance) + inflow [ev] := by
  have hcov := h.cover
  unfold distributionOf
  have hr := step_rel cfg w ev
  generalize step cfg w ev = w' at hr ⊢
  cases hr with
  | env h1 _ _ _ _ _ _ h8 => rw [h1, if_pos rfl]; simp only [List.map_nil, List.sum_nil]; omega
  | callback he => subst he; rw [if_pos rfl]; simp [inflow]
  | @call who att c p effs he _ hx =>
    subst he
    have hle := (call_facts h.pool hx).paidLe
    have hE : (commit w who att c p effs).pool.lastEpochHeight = p.lastEpochHeight := rfl
    rcases exec_snapshot h.pool hx with ⟨h1, h2⟩ | ⟨h1, h1', h2⟩
    · rw [if_pos (hE.trans h1)]
      simp only [mkEnv] at h2 hle
      simp only [commit, List.map_nil, List.sum_nil, inflow]
      omega
    · rw [if_neg (by rw [hE, h1]; exact h1')]
      simp only [mkEnv] at h2 hle
      simp only [commit, List.map_cons, List.map_nil, List.sum_cons, List.sum_nil, inflow]
      omega

end Verif.StakingPool
