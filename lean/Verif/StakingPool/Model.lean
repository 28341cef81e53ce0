import Verif.Common.Basic
import Verif.Common.UMap

/-!
# Model of `/repo/staking-pool` (near-sdk 2.0.0)

Function by function translation of staking-pool/src/lib.rs and staking-pool/src/internal.rs.
Simplifications: logs and gas are dropped; the state-existence check of `new` is a flag of the
environment; JSON/Borsh encoding is not modelled.
-/

namespace Verif.StakingPool

open Verif

/-- staking-pool/src/lib.rs:23 `STAKE_SHARE_PRICE_GUARANTEE_FUND`. -/
@[irreducible] def guaranteeFund : Nat := 1000000000000

/-- staking-pool/src/lib.rs:85 `NUM_EPOCHS_TO_UNLOCK`. -/
def numEpochsToUnlock : Nat := 4

/-- staking-pool/src/lib.rs:42-56 `Account`. -/
structure Account where
  unstaked : Nat
  stakeShares : Nat
  unstakedAvailableEpoch : Nat
deriving DecidableEq, Repr

/-- staking-pool/src/lib.rs:71-79 `impl Default for Account`. -/
def Account.default : Account := ⟨0, 0, 0⟩

/-- staking-pool/src/lib.rs:125-130 `RewardFeeFraction`. -/
structure Fee where
  numerator : Nat
  denominator : Nat
deriving DecidableEq, Repr

/-- staking-pool/src/lib.rs:87-117 `StakingContract`. -/
structure Pool where
  ownerId : AccountId
  stakePublicKey : PublicKey
  lastEpochHeight : Nat
  lastTotalBalance : Nat
  totalStakeShares : Nat
  totalStakedBalance : Nat
  rewardFee : Fee
  accounts : UMap AccountId Account
  paused : Bool

/-- What a method can read from the runtime (`near_sdk::env`). `accountBalance` includes
`attachedDeposit`, as in the runtime. `promiseResults` lists success flags. -/
structure Env where
  currentAccountId : AccountId
  predecessor : AccountId
  attachedDeposit : Nat
  accountBalance : Nat
  accountLockedBalance : Nat
  epochHeight : Nat
  promiseResults : List Bool
  /-- `env::is_valid_account_id` (host function; kept abstract). -/
  validAccountId : AccountId → Bool
  /-- whether the runtime accepts the bytes as a public key when a stake action is created. -/
  validPublicKey : PublicKey → Bool

/-- Promises created by the pool. `withCallback` says whether `on_stake_action` is chained. -/
inductive Eff where
  | transfer (receiver : AccountId) (amount : Nat)
  | stake (amount : Nat) (key : PublicKey) (withCallback : Bool)
  | voteCall (receiver : AccountId) (isVote : Bool)
deriving DecidableEq, Repr

/-- staking-pool/src/lib.rs:127-130: both fields are `u32`, so a JSON argument outside that range is
rejected while decoding the arguments. -/
def Fee.decode (f : Fee) : R Unit :=
  require (f.numerator < two32 ∧ f.denominator < two32) "Failed to deserialize input from JSON."

/-- staking-pool/src/lib.rs:133-139 `RewardFeeFraction::assert_valid`. -/
def Fee.assertValid (f : Fee) : R Unit := do
  require (f.denominator ≠ 0) "Denominator must be a positive number"
  require (f.numerator ≤ f.denominator) "The reward fee must be less or equal to 1"

/-- staking-pool/src/lib.rs:141-143 `RewardFeeFraction::multiply`. -/
def Fee.multiply (f : Fee) (value : Nat) : R Nat := do
  let m ← mulU256 f.numerator value
  let q ← divU m f.denominator
  asU128 q

/-- staking-pool/src/internal.rs:261-272 `num_shares_from_staked_amount_rounded_down`. -/
def numSharesDown (s : Pool) (amount : Nat) : R Nat := do
  require (s.totalStakedBalance > 0) "The total staked balance can't be 0"
  let m ← mulU256 s.totalStakeShares amount
  let q ← divU m s.totalStakedBalance
  asU128 q

/-- staking-pool/src/internal.rs:278-290 `num_shares_from_staked_amount_rounded_up`. -/
def numSharesUp (s : Pool) (amount : Nat) : R Nat := do
  require (s.totalStakedBalance > 0) "The total staked balance can't be 0"
  let m ← mulU256 s.totalStakeShares amount
  let m' ← addU256 m (s.totalStakedBalance - 1)
  let q ← divU m' s.totalStakedBalance
  asU128 q

/-- staking-pool/src/internal.rs:293-304 `staked_amount_from_num_shares_rounded_down`. -/
def stakedAmountDown (s : Pool) (numShares : Nat) : R Nat := do
  require (s.totalStakeShares > 0) "The total number of stake shares can't be 0"
  let m ← mulU256 s.totalStakedBalance numShares
  let q ← divU m s.totalStakeShares
  asU128 q

/-- staking-pool/src/internal.rs:309-321 `staked_amount_from_num_shares_rounded_up`. -/
def stakedAmountUp (s : Pool) (numShares : Nat) : R Nat := do
  require (s.totalStakeShares > 0) "The total number of stake shares can't be 0"
  let m ← mulU256 s.totalStakedBalance numShares
  let m' ← addU256 m (s.totalStakeShares - 1)
  let q ← divU m' s.totalStakeShares
  asU128 q

/-- staking-pool/src/internal.rs:324-326 `internal_get_account`. -/
def getAcc (s : Pool) (a : AccountId) : Account := (s.accounts.get a).getD Account.default

/-- staking-pool/src/internal.rs:331-335: an account without balances is deleted. -/
def saveMap (m : UMap AccountId Account) (a : AccountId) (acc : Account) : UMap AccountId Account :=
  if acc.unstaked > 0 ∨ acc.stakeShares > 0 then m.insert a acc else m.remove a

/-- staking-pool/src/internal.rs:330-336 `internal_save_account`. -/
def saveAcc (s : Pool) (a : AccountId) (acc : Account) : Pool :=
  { s with accounts := saveMap s.accounts a acc }

/-- staking-pool/src/internal.rs:9-22 `internal_restake`. An invalid key makes the host function
that creates the stake action fail ("the entire function call will be rolled back"). -/
def internalRestake (e : Env) (s : Pool) : R (List Eff) :=
  if s.paused then pure []
  else do
    require (e.validPublicKey s.stakePublicKey = true) "Invalid public key"
    pure [.stake s.totalStakedBalance s.stakePublicKey true]

/-- staking-pool/src/internal.rs:24-40 `internal_deposit`. -/
def internalDeposit (e : Env) (s : Pool) : R (Pool × Nat) := do
  let acc := getAcc s e.predecessor
  let amount := e.attachedDeposit
  let u ← addU128 acc.unstaked amount
  let s := saveAcc s e.predecessor { acc with unstaked := u }
  let lt ← addU128 s.lastTotalBalance amount
  pure ({ s with lastTotalBalance := lt }, amount)

/-- staking-pool/src/internal.rs:42-68 `internal_withdraw`. Creating a transfer needs the tokens to
be on the account (runtime check `BalanceExceeded`). -/
def internalWithdraw (e : Env) (s : Pool) (amount : Nat) : R (Pool × List Eff) := do
  require (amount > 0) "Withdrawal amount should be positive"
  let acc := getAcc s e.predecessor
  require (acc.unstaked ≥ amount) "Not enough unstaked balance to withdraw"
  require (acc.unstakedAvailableEpoch ≤ e.epochHeight)
    "The unstaked balance is not yet available due to unstaking delay"
  let u ← subU acc.unstaked amount
  let s := saveAcc s e.predecessor { acc with unstaked := u }
  require (amount ≤ e.accountBalance) "BalanceExceeded"
  let lt ← subU s.lastTotalBalance amount
  pure ({ s with lastTotalBalance := lt }, [.transfer e.predecessor amount])

/-- staking-pool/src/internal.rs:70-122 `internal_stake`. -/
def internalStake (e : Env) (s : Pool) (amount : Nat) : R Pool := do
  require (amount > 0) "Staking amount should be positive"
  let acc := getAcc s e.predecessor
  let numShares ← numSharesDown s amount
  require (numShares > 0)
    "The calculated number of \"stake\" shares received for staking should be positive"
  let chargeAmount ← stakedAmountDown s numShares
  require (chargeAmount > 0) "Invariant violation. Calculated staked amount must be positive"
  require (acc.unstaked ≥ chargeAmount) "Not enough unstaked balance to stake"
  let u ← subU acc.unstaked chargeAmount
  let sh ← addU128 acc.stakeShares numShares
  let s := saveAcc s e.predecessor { acc with unstaked := u, stakeShares := sh }
  let stakeAmount ← stakedAmountUp s numShares
  let t ← addU128 s.totalStakedBalance stakeAmount
  let ts ← addU128 s.totalStakeShares numShares
  pure { s with totalStakedBalance := t, totalStakeShares := ts }

/-- staking-pool/src/internal.rs:124-181 `inner_unstake`. -/
def innerUnstake (e : Env) (s : Pool) (amount : Nat) : R Pool := do
  require (amount > 0) "Unstaking amount should be positive"
  let acc := getAcc s e.predecessor
  require (s.totalStakedBalance > 0) "The contract doesn't have staked balance"
  let numShares ← numSharesUp s amount
  require (numShares > 0)
    "Invariant violation. The calculated number of \"stake\" shares for unstaking should be positive"
  require (acc.stakeShares ≥ numShares) "Not enough staked balance to unstake"
  let receiveAmount ← stakedAmountUp s numShares
  require (receiveAmount > 0) "Invariant violation. Calculated staked amount must be positive"
  let sh ← subU acc.stakeShares numShares
  let u ← addU128 acc.unstaked receiveAmount
  let av ← addU64 e.epochHeight numEpochsToUnlock
  let s := saveAcc s e.predecessor
    { unstaked := u, stakeShares := sh, unstakedAvailableEpoch := av }
  let unstakeAmount ← stakedAmountDown s numShares
  let t ← subU s.totalStakedBalance unstakeAmount
  let ts ← subU s.totalStakeShares numShares
  pure { s with totalStakedBalance := t, totalStakeShares := ts }

/-- staking-pool/src/internal.rs:184-190 `assert_owner`. -/
def assertOwner (e : Env) (s : Pool) : R Unit :=
  require (e.predecessor = s.ownerId) "Can only be called by the owner"

/-- staking-pool/src/internal.rs:223-231: credit the owner's fee shares. -/
def mintOwner (s : Pool) (numShares : Nat) : R Pool :=
  if numShares > 0 then do
    let acc := getAcc s s.ownerId
    let sh ← addU128 acc.stakeShares numShares
    let s := saveAcc s s.ownerId { acc with stakeShares := sh }
    let ts ← addU128 s.totalStakeShares numShares
    pure { s with totalStakeShares := ts }
  else pure s

/-- staking-pool/src/internal.rs:213-246: distribution of a positive reward. -/
def distribute (s : Pool) (totalReward : Nat) : R Pool := do
  let ownersFee ← s.rewardFee.multiply totalReward
  let remaining ← subU totalReward ownersFee
  let t ← addU128 s.totalStakedBalance remaining
  let s := { s with totalStakedBalance := t }
  let numShares ← numSharesDown s ownersFee
  let s ← mintOwner s numShares
  let t ← addU128 s.totalStakedBalance ownersFee
  pure { s with totalStakedBalance := t }

/-- staking-pool/src/internal.rs:213 `if total_reward > 0`. -/
def distributeIf (s : Pool) (totalReward : Nat) : R Pool :=
  if totalReward > 0 then distribute s totalReward else pure s

/-- staking-pool/src/internal.rs:194-250 `internal_ping`. -/
def internalPing (e : Env) (s : Pool) : R (Pool × Bool) :=
  if s.lastEpochHeight = e.epochHeight then pure (s, false)
  else do
    let s := { s with lastEpochHeight := e.epochHeight }
    let b ← addU128 e.accountLockedBalance e.accountBalance
    let totalBalance ← subU b e.attachedDeposit
    require (totalBalance ≥ s.lastTotalBalance)
      "The new total balance should not be less than the old total balance"
    let totalReward ← subU totalBalance s.lastTotalBalance
    let s ← distributeIf s totalReward
    pure ({ s with lastTotalBalance := totalBalance }, true)

/-- `if need_to_restake { self.internal_restake(); }`. -/
def restakeIf (e : Env) (s : Pool) (need : Bool) : R (List Eff) :=
  if need then internalRestake e s else pure []

/-- near-sdk: a method without `#[payable]` panics when a deposit is attached. -/
def notPayable (e : Env) : R Unit := require (e.attachedDeposit = 0) "Method doesn't accept deposit"

/-- staking-pool/src/lib.rs:174-206 `new`. `stateExists` is `env::state_exists()`. -/
def new (e : Env) (stateExists : Bool) (ownerId : AccountId) (key : PublicKey) (fee : Fee) :
    R (Pool × List Eff) := do
  require (e.attachedDeposit = 0) "Method doesn't accept deposit"
  fee.decode
  require (stateExists = false) "Already initialized"
  fee.assertValid
  require (e.validAccountId ownerId = true) "The owner account ID is invalid"
  let total ← subU e.accountBalance guaranteeFund
  require (e.accountLockedBalance = 0)
    "The staking pool shouldn't be staking at the initialization"
  let s : Pool :=
    { ownerId := ownerId, stakePublicKey := key, lastEpochHeight := e.epochHeight,
      lastTotalBalance := e.accountBalance, totalStakeShares := total, totalStakedBalance := total,
      rewardFee := fee, accounts := UMap.empty, paused := false }
  let eff ← internalRestake e s
  pure (s, eff)

/-- The change methods of the contract. -/
inductive Call where
  | ping
  | deposit
  | depositAndStake
  | withdrawAll
  | withdraw (amount : Nat)
  | stakeAll
  | stake (amount : Nat)
  | unstakeAll
  | unstake (amount : Nat)
  | onStakeAction
  | updateStakingKey (key : PublicKey)
  | updateRewardFeeFraction (fee : Fee)
  | vote (votingAccountId : AccountId) (isVote : Bool)
  | pauseStaking
  | resumeStaking
deriving DecidableEq, Repr

/-- staking-pool/src/lib.rs:209-213 `ping`. -/
def ping (e : Env) (s : Pool) : R (Pool × List Eff) := do
  notPayable e
  let (s, need) ← internalPing e s
  let eff ← restakeIf e s need
  pure (s, eff)

/-- staking-pool/src/lib.rs:217-225 `deposit` (payable). -/
def deposit (e : Env) (s : Pool) : R (Pool × List Eff) := do
  let (s, need) ← internalPing e s
  let (s, _) ← internalDeposit e s
  let eff ← restakeIf e s need
  pure (s, eff)

/-- staking-pool/src/lib.rs:229-236 `deposit_and_stake` (payable). -/
def depositAndStake (e : Env) (s : Pool) : R (Pool × List Eff) := do
  let (s, _) ← internalPing e s
  let (s, amount) ← internalDeposit e s
  let s ← internalStake e s amount
  let eff ← internalRestake e s
  pure (s, eff)

/-- staking-pool/src/lib.rs:240-250 `withdraw_all`. -/
def withdrawAll (e : Env) (s : Pool) : R (Pool × List Eff) := do
  notPayable e
  let (s, need) ← internalPing e s
  let acc := getAcc s e.predecessor
  let (s, eff1) ← internalWithdraw e s acc.unstaked
  let eff ← restakeIf e s need
  pure (s, eff1 ++ eff)

/-- staking-pool/src/lib.rs:254-263 `withdraw`. -/
def withdraw (e : Env) (s : Pool) (amount : Nat) : R (Pool × List Eff) := do
  notPayable e
  let (s, need) ← internalPing e s
  let (s, eff1) ← internalWithdraw e s amount
  let eff ← restakeIf e s need
  pure (s, eff1 ++ eff)

/-- staking-pool/src/lib.rs:266-275 `stake_all`. -/
def stakeAll (e : Env) (s : Pool) : R (Pool × List Eff) := do
  notPayable e
  let (s, _) ← internalPing e s
  let acc := getAcc s e.predecessor
  let s ← internalStake e s acc.unstaked
  let eff ← internalRestake e s
  pure (s, eff)

/-- staking-pool/src/lib.rs:279-287 `stake`. -/
def stake (e : Env) (s : Pool) (amount : Nat) : R (Pool × List Eff) := do
  notPayable e
  let (s, _) ← internalPing e s
  let s ← internalStake e s amount
  let eff ← internalRestake e s
  pure (s, eff)

/-- staking-pool/src/lib.rs:291-301 `unstake_all`. -/
def unstakeAll (e : Env) (s : Pool) : R (Pool × List Eff) := do
  notPayable e
  let (s, _) ← internalPing e s
  let acc := getAcc s e.predecessor
  let amount ← stakedAmountDown s acc.stakeShares
  let s ← innerUnstake e s amount
  let eff ← internalRestake e s
  pure (s, eff)

/-- staking-pool/src/lib.rs:306-314 `unstake`. -/
def unstake (e : Env) (s : Pool) (amount : Nat) : R (Pool × List Eff) := do
  notPayable e
  let (s, _) ← internalPing e s
  let s ← innerUnstake e s amount
  let eff ← internalRestake e s
  pure (s, eff)

/-- staking-pool/src/lib.rs:399-421 `on_stake_action`. -/
def onStakeAction (e : Env) (s : Pool) : R (Pool × List Eff) := do
  notPayable e
  require (e.currentAccountId = e.predecessor) "Can be called only as a callback"
  require (e.promiseResults.length = 1) "Contract expected a result on the callback"
  let succeeded := e.promiseResults.headD false
  if succeeded = false ∧ e.accountLockedBalance > 0 then do
    require (e.validPublicKey s.stakePublicKey = true) "Invalid public key"
    pure (s, [.stake 0 s.stakePublicKey false])
  else pure (s, [])

/-- staking-pool/src/lib.rs:429-435 `update_staking_key`. -/
def updateStakingKey (e : Env) (s : Pool) (key : PublicKey) : R (Pool × List Eff) := do
  notPayable e
  assertOwner e s
  let (s, _) ← internalPing e s
  let s := { s with stakePublicKey := key }
  let eff ← internalRestake e s
  pure (s, eff)

/-- staking-pool/src/lib.rs:439-448 `update_reward_fee_fraction`. -/
def updateRewardFeeFraction (e : Env) (s : Pool) (fee : Fee) : R (Pool × List Eff) := do
  notPayable e
  fee.decode
  assertOwner e s
  fee.assertValid
  let (s, need) ← internalPing e s
  let s := { s with rewardFee := fee }
  let eff ← restakeIf e s need
  pure (s, eff)

/-- staking-pool/src/lib.rs:452-460 `vote`. -/
def vote (e : Env) (s : Pool) (votingAccountId : AccountId) (isVote : Bool) :
    R (Pool × List Eff) := do
  notPayable e
  assertOwner e s
  require (e.validAccountId votingAccountId = true) "Invalid voting account ID"
  pure (s, [.voteCall votingAccountId isVote])

/-- staking-pool/src/lib.rs:464-471 `pause_staking`. -/
def pauseStaking (e : Env) (s : Pool) : R (Pool × List Eff) := do
  notPayable e
  assertOwner e s
  require (s.paused = false) "The staking is already paused"
  let (s, _) ← internalPing e s
  let s := { s with paused := true }
  require (e.validPublicKey s.stakePublicKey = true) "Invalid public key"
  pure (s, [.stake 0 s.stakePublicKey false])

/-- staking-pool/src/lib.rs:475-482 `resume_staking`. -/
def resumeStaking (e : Env) (s : Pool) : R (Pool × List Eff) := do
  notPayable e
  assertOwner e s
  require (s.paused = true) "The staking is not paused"
  let (s, _) ← internalPing e s
  let s := { s with paused := false }
  let eff ← internalRestake e s
  pure (s, eff)

/-- Method dispatch (generated by `#[near_bindgen]`). -/
def exec (e : Env) (s : Pool) : Call → R (Pool × List Eff)
  | .ping => ping e s
  | .deposit => deposit e s
  | .depositAndStake => depositAndStake e s
  | .withdrawAll => withdrawAll e s
  | .withdraw a => withdraw e s a
  | .stakeAll => stakeAll e s
  | .stake a => stake e s a
  | .unstakeAll => unstakeAll e s
  | .unstake a => unstake e s a
  | .onStakeAction => onStakeAction e s
  | .updateStakingKey k => updateStakingKey e s k
  | .updateRewardFeeFraction f => updateRewardFeeFraction e s f
  | .vote a b => vote e s a b
  | .pauseStaking => pauseStaking e s
  | .resumeStaking => resumeStaking e s

/-! ## Views -/

/-- staking-pool/src/lib.rs:59-69 `HumanReadableAccount`. -/
structure HumanAccount where
  accountId : AccountId
  unstakedBalance : Nat
  stakedBalance : Nat
  canWithdraw : Bool
deriving DecidableEq, Repr

/-- staking-pool/src/lib.rs:369-379 `get_account`. -/
def getAccount (epochHeight : Nat) (s : Pool) (a : AccountId) : R HumanAccount := do
  let acc := getAcc s a
  let staked ← stakedAmountDown s acc.stakeShares
  pure { accountId := a, unstakedBalance := acc.unstaked, stakedBalance := staked,
         canWithdraw := decide (acc.unstakedAvailableEpoch ≤ epochHeight) }

/-- staking-pool/src/lib.rs:321-323 `get_account_unstaked_balance`. -/
def getAccountUnstakedBalance (epochHeight : Nat) (s : Pool) (a : AccountId) : R Nat := do
  let acc ← getAccount epochHeight s a
  pure acc.unstakedBalance

/-- staking-pool/src/lib.rs:328-330 `get_account_staked_balance`. -/
def getAccountStakedBalance (epochHeight : Nat) (s : Pool) (a : AccountId) : R Nat := do
  let acc ← getAccount epochHeight s a
  pure acc.stakedBalance

/-- staking-pool/src/lib.rs:333-336 `get_account_total_balance`. -/
def getAccountTotalBalance (epochHeight : Nat) (s : Pool) (a : AccountId) : R Nat := do
  let acc ← getAccount epochHeight s a
  addU128 acc.unstakedBalance acc.stakedBalance

/-- staking-pool/src/lib.rs:339-341 `is_account_unstaked_balance_available`. -/
def isAccountUnstakedBalanceAvailable (epochHeight : Nat) (s : Pool) (a : AccountId) : R Bool := do
  let acc ← getAccount epochHeight s a
  pure acc.canWithdraw

/-- staking-pool/src/lib.rs:344-346 `get_total_staked_balance`. -/
def getTotalStakedBalance (s : Pool) : Nat := s.totalStakedBalance
/-- staking-pool/src/lib.rs:349-351 `get_owner_id`. -/
def getOwnerId (s : Pool) : AccountId := s.ownerId
/-- staking-pool/src/lib.rs:354-356 `get_reward_fee_fraction`. -/
def getRewardFeeFraction (s : Pool) : Fee := s.rewardFee
/-- staking-pool/src/lib.rs:359-361 `get_staking_key`. -/
def getStakingKey (s : Pool) : PublicKey := s.stakePublicKey
/-- staking-pool/src/lib.rs:364-366 `is_staking_paused`. -/
def isStakingPaused (s : Pool) : Bool := s.paused
/-- staking-pool/src/lib.rs:382-384 `get_number_of_accounts`. -/
def getNumberOfAccounts (s : Pool) : Nat := s.accounts.len

/-- staking-pool/src/lib.rs:387-393 `get_accounts`. The Rust range `from..min(from+limit, len)` is
empty when `from` is not below the bound. -/
def getAccounts (epochHeight : Nat) (s : Pool) (fromIndex limit : Nat) : R (List HumanAccount) := do
  let hi ← addU64 fromIndex limit
  ((s.accounts.keys.take (min hi s.accounts.keys.length)).drop fromIndex).mapM
    (getAccount epochHeight s)

end Verif.StakingPool
