import Verif.StakingPool.Compound

/-!
# Staking pool property C110: rewards compound
-/

namespace Verif.StakingPool

open Verif

/-- **C110 (rewards compound).** Whoever makes no call keeps earning on what it earned before: over any
history its staked balance grows at least by the product of the factors `(T + r - fee) / T` of all
distributions in the history (`T` the total stake, `r` the reward found, `fee` the owner's part), rounded
down only once. Stakes and withdrawals of others in between take nothing away from this. -/
theorem C110_rewards_compound {cfg : Cfg} {w : World} (h : Reachable cfg w) {a : AccountId}
    {evs : List Ev} (hn : ∀ ev ∈ evs, ¬ ev.isCallBy a) {v : Nat}
    (hv : getAccountStakedBalance w.epoch w.pool a = .ok v) :
    ∃ v', getAccountStakedBalance (run cfg w evs).epoch (run cfg w evs).pool a = .ok v' ∧
      v * grown (distributions cfg w evs) / base (distributions cfg w evs) ≤ v' := by
  obtain ⟨s0, hi⟩ := reachable_inv h
  have hi' := run_inv hi evs
  rw [getStaked_total hi.pool] at hv
  cases hv
  refine ⟨_, getStaked_total hi'.pool _ a, ?_⟩
  have hg := run_growth hi evs
  have hB := base_pos hi evs
  have hx := (run_bystander hi hn).1
  have hS := hi.pool.S_pos
  have hS' := hi'.pool.S_pos
  unfold stakedOf
  generalize grown (distributions cfg w evs) = G at *
  generalize base (distributions cfg w evs) = B at *
  generalize (run cfg w evs).pool.totalStakedBalance = T' at *
  generalize (run cfg w evs).pool.totalStakeShares = S' at *
  generalize w.pool.totalStakedBalance = T at *
  generalize w.pool.totalStakeShares = S at *
  generalize (getAcc (run cfg w evs).pool a).stakeShares = x' at *
  generalize (getAcc w.pool a).stakeShares = x at *
  rw [Nat.le_div_iff_mul_le hS']
  have l1 := Nat.div_mul_le_self (T * x) S
  generalize T * x / S = v at *
  have l2 := Nat.div_mul_le_self (v * G) B
  generalize v * G / B = q at *
  refine Nat.le_of_mul_le_mul_left ?_ (Nat.mul_pos hB hS)
  calc B * S * (q * S') = q * B * (S' * S) := by ring
    _ ≤ v * G * (S' * S) := Nat.mul_le_mul_right _ l2
    _ = v * S * (G * S') := by ring
    _ ≤ T * x * (G * S') := Nat.mul_le_mul_right _ l1
    _ = T * G * S' * x := by ring
    _ ≤ T' * S * B * x := Nat.mul_le_mul_right _ hg
    _ ≤ T' * S * B * x' := Nat.mul_le_mul_left _ hx
    _ = B * S * (T' * x') := by ring

/-- Two distributions of 10^23 yocto each with others staking in between: the fee is taken twice and
the second distribution is on top of the first. -/
example :
    let evs := [Ev.epochs 1, .reward (10 ^ 23), .call "bob.near" (10 ^ 24) .depositAndStake,
      .epochs 2, .reward (10 ^ 23), .call "carol.near" 0 .ping]
    Reachable demoCfg demo ∧ (∀ ev ∈ evs, ¬ ev.isCallBy "alice.near") ∧
    (getAccountStakedBalance demo.epoch demo.pool "alice.near").isOk = true ∧
    (distributions demoCfg demo evs).length = 2 ∧
    base (distributions demoCfg demo evs) < grown (distributions demoCfg demo evs) ∧
    (∀ d ∈ distributions demoCfg demo evs, 0 < d.fee ∧ 10 ^ 23 ≤ d.reward) :=
  ⟨demo_reachable, by simp [Ev.isCallBy], by decide +kernel, by decide +kernel, by decide +kernel,
    by decide +kernel⟩

/-- **C110 (all that comes in is distributed, once).** The rewards of all distributions of a history add
up to what came in from outside, apart from what waits for the next distribution before and after; the
account always holds at least what was accounted. -/
theorem C110_rewards_found {cfg : Cfg} {w : World} (h : Reachable cfg w) (evs : List Ev) :
    (run cfg w evs).pool.lastTotalBalance ≤ (run cfg w evs).liquid + (run cfg w evs).locked ∧
    ((distributions cfg w evs).map (·.reward)).sum +
        ((run cfg w evs).liquid + (run cfg w evs).locked - (run cfg w evs).pool.lastTotalBalance) =
      (w.liquid + w.locked - w.pool.lastTotalBalance) + inflow evs := by
  obtain ⟨s0, hi⟩ := reachable_inv h
  clear h
  refine ⟨(run_inv hi evs).cover, ?_⟩
  induction evs generalizing w with
  | nil => simp [run, distributions, inflow]
  | cons ev t ih =>
    have h1 := step_found hi ev
    have h2 := ih (step_inv hi ev)
    rw [inflow_cons, distributions, List.map_append, List.sum_append]
    simp only [run]
    omega

/-- Both rewards were found and nothing waits. -/
example :
    let evs := [Ev.epochs 1, .reward (10 ^ 23), .call "bob.near" (10 ^ 24) .depositAndStake,
      .epochs 2, .reward (10 ^ 23), .call "carol.near" 0 .ping]
    Reachable demoCfg demo ∧ inflow evs = 2 * 10 ^ 23 ∧
    2 * 10 ^ 23 ≤ ((distributions demoCfg demo evs).map (·.reward)).sum :=
  ⟨demo_reachable, by decide +kernel, by decide +kernel⟩

end Verif.StakingPool
