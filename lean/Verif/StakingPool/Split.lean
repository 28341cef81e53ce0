import Verif.StakingPool.Props4

/-!
# Every call is: checks, reward distribution, operation
-/

namespace Verif.StakingPool

open Verif

/-- The checks a method performs before the reward distribution (staking-pool/src/lib.rs:208-482). -/
def pre (e : Env) (s : Pool) : Call → R Unit
  | .deposit => pure ()
  | .depositAndStake => pure ()
  | .updateStakingKey _ => do
    notPayable e
    assertOwner e s
  | .updateRewardFeeFraction f => do
    notPayable e
    f.decode
    assertOwner e s
    f.assertValid
  | .pauseStaking => do
    notPayable e
    assertOwner e s
    require (s.paused = false) "The staking is already paused"
  | .resumeStaking => do
    notPayable e
    assertOwner e s
    require (s.paused = true) "The staking is not paused"
  | _ => notPayable e

/-- What a method does after the reward distribution; `need` says whether it distributed
(staking-pool/src/lib.rs:208-482). -/
def post (e : Env) (s : Pool) (need : Bool) : Call → R (Pool × List Eff)
  | .ping => do
    let eff ← restakeIf e s need
    pure (s, eff)
  | .deposit => do
    let (s, _) ← internalDeposit e s
    let eff ← restakeIf e s need
    pure (s, eff)
  | .depositAndStake => do
    let (s, amount) ← internalDeposit e s
    let s ← internalStake e s amount
    let eff ← internalRestake e s
    pure (s, eff)
  | .withdrawAll => do
    let (s, eff1) ← internalWithdraw e s (getAcc s e.predecessor).unstaked
    let eff ← restakeIf e s need
    pure (s, eff1 ++ eff)
  | .withdraw amount => do
    let (s, eff1) ← internalWithdraw e s amount
    let eff ← restakeIf e s need
    pure (s, eff1 ++ eff)
  | .stakeAll => do
    let s ← internalStake e s (getAcc s e.predecessor).unstaked
    let eff ← internalRestake e s
    pure (s, eff)
  | .stake amount => do
    let s ← internalStake e s amount
    let eff ← internalRestake e s
    pure (s, eff)
  | .unstakeAll => do
    let amount ← stakedAmountDown s (getAcc s e.predecessor).stakeShares
    let s ← innerUnstake e s amount
    let eff ← internalRestake e s
    pure (s, eff)
  | .unstake amount => do
    let s ← innerUnstake e s amount
    let eff ← internalRestake e s
    pure (s, eff)
  | .updateStakingKey key => do
    let s := { s with stakePublicKey := key }
    let eff ← internalRestake e s
    pure (s, eff)
  | .updateRewardFeeFraction fee => do
    let s := { s with rewardFee := fee }
    let eff ← restakeIf e s need
    pure (s, eff)
  | .pauseStaking => do
    let s := { s with paused := true }
    require (e.validPublicKey s.stakePublicKey = true) "Invalid public key"
    pure (s, [.stake 0 s.stakePublicKey false])
  | .resumeStaking => do
    let s := { s with paused := false }
    let eff ← internalRestake e s
    pure (s, eff)
  | .onStakeAction => throw ""
  | .vote _ _ => throw ""

theorem exec_split {e : Env} {s : Pool} {c : Call} (hc : c.pings = true) :
    exec e s c = (do pre e s c; let (s1, need) ← internalPing e s; post e s1 need c) := by
  cases c <;> first | (cases hc; done) | skip
  all_goals
    simp only [exec, pre, post, ping, deposit, depositAndStake, withdrawAll, withdraw, stakeAll,
      stake, unstakeAll, unstake, updateStakingKey, updateRewardFeeFraction, pauseStaking,
      resumeStaking, bind_assoc, pure_bind]

theorem pre_congr {e : Env} {s s1 : Pool} (ho : s1.ownerId = s.ownerId) (hp : s1.paused = s.paused)
    (c : Call) : pre e s1 c = pre e s c := by
  cases c <;> simp only [pre, assertOwner, ho, hp]

theorem exec_split_ok {e : Env} {s p : Pool} {c : Call} {effs : List Eff} (hc : c.pings = true) :
    exec e s c = .ok (p, effs) ↔
      ∃ s1 need, pre e s c = .ok () ∧ internalPing e s = .ok (s1, need) ∧
        post e s1 need c = .ok (p, effs) := by
  rw [exec_split hc]
  simp only [bind_ok, Prod.exists]
  constructor
  · rintro ⟨_, h1, s1, b, h2, h3⟩; exact ⟨s1, b, h1, h2, h3⟩
  · rintro ⟨s1, b, h1, h2, h3⟩; exact ⟨(), h1, s1, b, h2, h3⟩

end Verif.StakingPool
