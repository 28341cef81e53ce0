import Verif.Common.Basic

/-!
# Model of `/repo/lockup` (near-sdk 3.1.0)

Function by function translation of lockup/src/{lib,types,internal,getters,owner,owner_callbacks,
foundation,foundation_callbacks}.rs. Simplifications: logs and gas are dropped; `sha256` and
`is_valid_account_id` are host functions kept abstract; JSON decoding is reduced to the integer
range checks of `U64`/`U128`; each method returns at most one promise, so effects are an `Option`.
-/

namespace Verif.Lockup

open Verif

/-- Raw bytes. -/
abbrev Bytes := List UInt8

/-- lockup/src/lib.rs:33 `MIN_BALANCE_FOR_STORAGE` (3.5 NEAR). -/
@[irreducible] def minBalanceForStorage : Nat := 3500000000000000000000000

/-- lockup/src/types.rs:59-69 `TransfersInformation`. -/
inductive Transfers where
  | enabled (timestamp : Nat)
  | disabled (poll : AccountId)
deriving DecidableEq, Repr

/-- lockup/src/types.rs:29-54 `LockupInformation`. -/
structure LockupInfo where
  lockupAmount : Nat
  terminationWithdrawn : Nat
  lockupDuration : Nat
  releaseDuration : Option Nat
  lockupTimestamp : Option Nat
  transfers : Transfers
deriving DecidableEq, Repr

/-- lockup/src/types.rs:99-108 `VestingSchedule`. -/
structure Schedule where
  start : Nat
  cliff : Nat
  finish : Nat
deriving DecidableEq, Repr

/-- lockup/src/types.rs:164-177 `TerminationStatus`. -/
inductive TStatus where
  | terminatedWithDeficit
  | unstakingInProgress
  | everythingUnstaked
  | withdrawingFromPool
  | readyToWithdraw
  | withdrawingFromAccount
deriving DecidableEq, Repr

/-- lockup/src/types.rs:142-156 `VestingInformation` (with `TerminationInformation`, 182-190). -/
inductive Vesting where
  | none
  | hash (h : Bytes)
  | schedule (vs : Schedule)
  | terminating (unvested : Nat) (status : TStatus)
deriving DecidableEq, Repr

/-- lockup/src/types.rs:130-137 `VestingScheduleOrHash`. -/
inductive ScheduleOrHash where
  | hash (h : Bytes)
  | schedule (vs : Schedule)
deriving DecidableEq, Repr

/-- lockup/src/types.rs:199-204 `VestingScheduleWithSalt`. -/
structure ScheduleWithSalt where
  schedule : Schedule
  salt : Bytes
deriving DecidableEq, Repr

/-- lockup/src/types.rs:84-94 `StakingInformation`; `busy` is `TransactionStatus` (75-80). -/
structure StakingInfo where
  pool : AccountId
  busy : Bool
  deposit : Nat
deriving DecidableEq, Repr

/-- lockup/src/lib.rs:121-141 `LockupContract`. -/
structure Lockup where
  owner : AccountId
  info : LockupInfo
  vesting : Vesting
  whitelist : AccountId
  staking : Option StakingInfo
  foundation : Option AccountId
deriving DecidableEq, Repr

/-- The result of the promise a callback is attached to, as far as the contract decodes it. -/
inductive PResult where
  | failed
  | unit
  | bool (b : Bool)
  | balance (n : Nat)
  | poll (r : Option Nat)
deriving DecidableEq, Repr

/-- What a method can read from the runtime. `accountBalance` includes `attachedDeposit`. -/
structure Env where
  self : AccountId
  predecessor : AccountId
  attachedDeposit : Nat
  accountBalance : Nat
  now : Nat
  result : Option PResult
  /-- `env::is_valid_account_id` (host function; kept abstract). -/
  validAccountId : AccountId → Bool
  /-- `env::sha256` (host function; kept abstract). -/
  sha256 : Bytes → Bytes

/-- Methods that only the contract itself may call: lockup/src/owner_callbacks.rs and
lockup/src/foundation_callbacks.rs, with their plain arguments. -/
inductive Callback where
  | onWhitelist (pool : AccountId)
  | onDeposit (amount : Nat)
  | onDepositAndStake (amount : Nat)
  | onWithdraw (amount : Nat)
  | onStake (amount : Nat)
  | onUnstake (amount : Nat)
  | onUnstakeAll
  | onPollResult
  | onTotalBalance
  | onUnstakedToWithdrawByOwner
  | onStakedToUnstake
  | onUnstakeForTermination (amount : Nat)
  | onUnstakedToWithdraw
  | onWithdrawForTermination (amount : Nat)
  | onWithdrawUnvested (amount : Nat) (receiver : AccountId)
deriving DecidableEq, Repr

/-- Receipts to other contracts or actions (lockup/src/lib.rs:35-65 external interfaces). -/
inductive Ext where
  | isWhitelisted (whitelist pool : AccountId)
  | getResult (poll : AccountId)
  | poolDeposit (pool : AccountId) (amount : Nat)
  | poolDepositAndStake (pool : AccountId) (amount : Nat)
  | poolWithdraw (pool : AccountId) (amount : Nat)
  | poolStake (pool : AccountId) (amount : Nat)
  | poolUnstake (pool : AccountId) (amount : Nat)
  | poolUnstakeAll (pool : AccountId)
  | poolStakedBalance (pool : AccountId)
  | poolUnstakedBalance (pool : AccountId)
  | poolTotalBalance (pool : AccountId)
  | transfer (receiver : AccountId) (amount : Nat)
  | addFullAccessKey (key : PublicKey)
deriving DecidableEq, Repr

/-- A promise with an optional callback to the contract itself. -/
structure Eff where
  ext : Ext
  callback : Option Callback
deriving DecidableEq, Repr

/-- Tokens attached to the receipt; the host debits them when the promise is created. -/
def Ext.attached : Ext → Nat
  | .poolDeposit _ a => a
  | .poolDepositAndStake _ a => a
  | .transfer _ a => a
  | _ => 0

/-! ## types.rs -/

/-- Little endian bytes of an unsigned integer of `k` bytes (Borsh). -/
def leBytes : Nat → Nat → Bytes
  | 0, _ => []
  | k + 1, n => UInt8.ofNat (n % 256) :: leBytes k (n / 256)

/-- lockup/src/types.rs:197 derived `BorshSerialize`: three `u64`, then length (`u32`) and bytes. -/
def ScheduleWithSalt.borsh (s : ScheduleWithSalt) : Bytes :=
  leBytes 8 s.schedule.start ++ (leBytes 8 s.schedule.cliff ++ (leBytes 8 s.schedule.finish ++
    (leBytes 4 s.salt.length ++ s.salt)))

/-- lockup/src/types.rs:206-210 `VestingScheduleWithSalt::hash`. -/
def ScheduleWithSalt.hash (e : Env) (s : ScheduleWithSalt) : Bytes := e.sha256 s.borsh

/-- `u64::saturating_add`. -/
def satAdd64 (a b : Nat) : Nat := min (a + b) (two64 - 1)

/-- JSON decoding of `U64`. -/
def decodeU64 (n : Nat) : R Unit := require (n < two64) "Failed to deserialize input from JSON."
/-- JSON decoding of `U128`. -/
def decodeU128 (n : Nat) : R Unit := require (n < two128) "Failed to deserialize input from JSON."
/-- JSON decoding of `Option<U64>`. -/
def decodeOptU64 : Option Nat → R Unit
  | none => pure ()
  | some n => decodeU64 n
/-- JSON decoding of `VestingSchedule`. -/
def decodeSchedule (vs : Schedule) : R Unit := do
  decodeU64 vs.start
  decodeU64 vs.cliff
  decodeU64 vs.finish

/-- near-sdk 3.1.0: a method without `#[payable]` rejects an attached deposit. -/
def notPayable (e : Env) : R Unit := require (e.attachedDeposit = 0) "Method doesn't accept deposit"

/-! ## lib.rs -/

/-- lockup/src/lib.rs:195-207: check of the poll account id. -/
def checkTransfers (e : Env) : Transfers → R Unit
  | .enabled t => decodeU64 t
  | .disabled poll =>
    require (e.validAccountId poll = true) "The transfer poll account ID is invalid"

/-- lockup/src/lib.rs:216-228: vesting information from the argument. -/
def initVesting (foundation : Option AccountId) : Option ScheduleOrHash → R Vesting
  | none => do
    require (foundation = none) "Foundation account can't be added without vesting schedule"
    pure .none
  | some (.hash h) => pure (.hash h)
  | some (.schedule vs) => do
    decodeSchedule vs
    pure (.schedule vs)

/-- lockup/src/lib.rs:229-233 (`unwrap` of `None` panics as well). -/
def checkFoundation (e : Env) (v : Vesting) (foundation : Option AccountId) : R Unit :=
  require (v = .none ∨ ∃ f, foundation = some f ∧ e.validAccountId f = true)
    "Foundation account should be added for vesting schedule"

/-- Arguments of `new` (lockup/src/lib.rs:182-190). -/
structure NewArgs where
  owner : AccountId
  lockupDuration : Nat
  lockupTimestamp : Option Nat
  transfers : Transfers
  vesting : Option ScheduleOrHash
  releaseDuration : Option Nat
  whitelist : AccountId
  foundation : Option AccountId

instance (e : Env) (v : Vesting) (f : Option AccountId) :
    Decidable (v = .none ∨ ∃ g, f = some g ∧ e.validAccountId g = true) :=
  match f with
  | none => if h : v = .none then .isTrue (.inl h) else .isFalse (by rintro (h' | ⟨g, h', _⟩); exact h h'; cases h')
  | some g =>
    if h : v = .none then .isTrue (.inl h)
    else if hg : e.validAccountId g = true then .isTrue (.inr ⟨g, rfl, hg⟩)
    else .isFalse (by
      rintro (h' | ⟨g', h', h2⟩)
      · exact h h'
      · cases h'; exact hg h2)

/-- lockup/src/lib.rs:181-243 `new`. `initialized` says whether state exists (near-sdk `#[init]`). -/
def new (e : Env) (initialized : Bool) (a : NewArgs) : R Lockup := do
  notPayable e
  require (initialized = false) "The contract has already been initialized"
  decodeU64 a.lockupDuration
  decodeOptU64 a.lockupTimestamp
  decodeOptU64 a.releaseDuration
  require (e.validAccountId a.owner = true) "The account ID of the owner is invalid"
  require (e.validAccountId a.whitelist = true) "The staking pool whitelist account ID is invalid"
  checkTransfers e a.transfers
  let vesting ← initVesting a.foundation a.vesting
  checkFoundation e vesting a.foundation
  pure
    { owner := a.owner
      info :=
        { lockupAmount := e.accountBalance, terminationWithdrawn := 0,
          lockupDuration := a.lockupDuration, releaseDuration := a.releaseDuration,
          lockupTimestamp := a.lockupTimestamp, transfers := a.transfers }
      vesting := vesting
      whitelist := a.whitelist
      staking := none
      foundation := a.foundation }

/-! ## internal.rs -/

/-- lockup/src/internal.rs:10-14 `get_account_balance`. -/
def getAccountBalance (e : Env) : Nat := e.accountBalance - minBalanceForStorage

/-- lockup/src/internal.rs:16-21 `set_staking_pool_status`. -/
def setBusy (s : Lockup) (b : Bool) : R Lockup :=
  match s.staking with
  | none => throw "Staking pool should be selected"
  | some si => pure { s with staking := some { si with busy := b } }

/-- lockup/src/internal.rs:23-31 `set_termination_status`. -/
def setTermination (s : Lockup) (st : TStatus) : R Lockup :=
  match s.vesting with
  | .terminating u _ => pure { s with vesting := .terminating u st }
  | _ => throw "The vesting information is not at the terminating stage"

/-- lockup/src/internal.rs:33-60 `assert_vesting`. -/
def assertVesting (e : Env) (s : Lockup) (arg : Option ScheduleWithSalt) : R Schedule :=
  match s.vesting with
  | .hash h =>
    match arg with
    | some v => do
      require (v.hash e = h) "Presented vesting schedule and salt don't match the hash"
      pure v.schedule
    | none => throw "Expected vesting schedule and salt, but it was not provided"
  | .schedule vs => do
    require (arg = none) "Explicit vesting schedule exists"
    pure vs
  | .terminating _ _ => throw "Vesting was terminated"
  | .none => throw "Vesting is None"

/-- Whether the vesting information is `Terminating`. -/
def Vesting.isTerminating : Vesting → Bool
  | .terminating _ _ => true
  | _ => false

/-- lockup/src/getters.rs:181-186 `are_transfers_enabled`. -/
def transfersEnabled (s : Lockup) : Bool :=
  match s.info.transfers with
  | .enabled _ => true
  | .disabled _ => false

/-- lockup/src/internal.rs:62-66 `assert_no_termination`. -/
def assertNoTermination (s : Lockup) : R Unit :=
  require (s.vesting.isTerminating = false)
    "All operations are blocked until vesting termination is completed"

/-- lockup/src/internal.rs:68-70 `assert_transfers_enabled`. -/
def assertTransfersEnabled (s : Lockup) : R Unit :=
  require (transfersEnabled s = true) "Transfers are disabled"

/-- lockup/src/internal.rs:72-77 `assert_transfers_disabled`. -/
def assertTransfersDisabled (s : Lockup) : R Unit :=
  require (transfersEnabled s = false) "Transfers are already enabled"

/-- lockup/src/internal.rs:79-88 `assert_no_staking_or_idle`. -/
def assertNoStakingOrIdle (s : Lockup) : R Unit :=
  match s.staking with
  | none => pure ()
  | some si => require (si.busy = false) "Contract is currently busy with another operation"

/-- lockup/src/internal.rs:90-101 `assert_staking_pool_is_idle`; returns the selected pool, which the
callers read with `unwrap` right afterwards. -/
def assertIdle (s : Lockup) : R StakingInfo :=
  match s.staking with
  | none => throw "Staking pool is not selected"
  | some si => do
    require (si.busy = false) "Contract is currently busy with another operation"
    pure si

/-- lockup/src/internal.rs:103-108 `assert_staking_pool_is_not_selected`. -/
def assertNotSelected (s : Lockup) : R Unit :=
  require (s.staking = none) "Staking pool is already selected"

/-- lockup/src/internal.rs:110-120 `assert_called_by_foundation`. -/
def assertFoundation (e : Env) (s : Lockup) : R Unit :=
  match s.foundation with
  | some f => require (e.predecessor = f) "Can only be called by NEAR Foundation"
  | none => throw "No NEAR Foundation account is specified in the contract"

/-- lockup/src/internal.rs:122-128 `assert_owner`. -/
def assertOwner (e : Env) (s : Lockup) : R Unit :=
  require (e.predecessor = s.owner) "Can only be called by the owner"

/-! ## getters.rs -/

/-- lockup/src/getters.rs:9-11 `get_owner_account_id`. -/
def getOwnerAccountId (s : Lockup) : AccountId := s.owner

/-- lockup/src/getters.rs:14-18 `get_staking_pool_account_id`. -/
def getStakingPoolAccountId (s : Lockup) : Option AccountId :=
  s.staking.map StakingInfo.pool

/-- lockup/src/getters.rs:155-157 `get_vesting_information`. -/
def getVestingInformation (s : Lockup) : Vesting := s.vesting

/-- lockup/src/getters.rs:24-30 `get_known_deposited_balance`. -/
def knownDeposited (s : Lockup) : Nat :=
  match s.staking with
  | none => 0
  | some si => si.deposit

/-- lockup/src/getters.rs:33-40 `get_termination_status`. -/
def terminationStatus (s : Lockup) : Option TStatus :=
  match s.vesting with
  | .terminating _ st => some st
  | _ => none

/-- lockup/src/getters.rs:44-53 `get_terminated_unvested_balance`. -/
def terminatedUnvested (s : Lockup) : Nat :=
  match s.vesting with
  | .terminating u _ => u
  | _ => 0

/-- lockup/src/getters.rs:57-62 `get_terminated_unvested_balance_deficit`. -/
def terminatedDeficit (e : Env) (s : Lockup) : Nat := terminatedUnvested s - getAccountBalance e

/-- lockup/src/getters.rs:131-149: the schedule part of `get_unvested_amount`. -/
def scheduleUnvested (lockupAmount now : Nat) (vs : Schedule) : R Nat :=
  if now < vs.cliff then pure lockupAmount
  else if now ≥ vs.finish then pure 0
  else do
    let timeLeft ← subU vs.finish now
    let totalTime ← subU vs.finish vs.start
    let m ← mulU256 lockupAmount timeLeft
    let q ← divU m totalTime
    asU128 q

/-- lockup/src/getters.rs:123-152 `get_unvested_amount`. -/
def getUnvestedAmount (e : Env) (s : Lockup) (vs : Schedule) : R Nat :=
  match s.vesting with
  | .terminating u _ => pure u
  | .none => pure 0
  | _ => scheduleUnvested s.info.lockupAmount e.now vs

/-- lockup/src/getters.rs:71-76: the moment from which tokens are released. -/
def lockupMoment (i : LockupInfo) (transfersTimestamp : Nat) : Nat :=
  max (satAdd64 transfersTimestamp i.lockupDuration) (i.lockupTimestamp.getD 0)

/-- lockup/src/getters.rs:79-96: the unreleased amount, from the lockup moment on. -/
def unreleasedAmount (lockupAmount moment now : Nat) : Option Nat → R Nat
  | none => pure 0
  | some release =>
    let endT := satAdd64 moment release
    if now ≥ endT then pure 0
    else do
      let timeLeft ← subU endT now
      let m ← mulU256 lockupAmount timeLeft
      let q ← divU m release
      asU128 q

/-- lockup/src/getters.rs:98-103: the unvested amount used for the locked amount. -/
def lockedUnvested (e : Env) (s : Lockup) : R Nat :=
  match s.vesting with
  | .schedule vs => getUnvestedAmount e s vs
  | .terminating u _ => pure u
  | _ => pure 0

/-- lockup/src/getters.rs:65-113 `get_locked_amount`. -/
def getLockedAmount (e : Env) (s : Lockup) : R Nat :=
  match s.info.transfers with
  | .enabled ts =>
    let moment := lockupMoment s.info ts
    if moment ≤ e.now then do
      let unreleased ← unreleasedAmount s.info.lockupAmount moment e.now s.info.releaseDuration
      let unvested ← lockedUnvested e s
      pure (max (unreleased - s.info.terminationWithdrawn) unvested)
    else subU s.info.lockupAmount s.info.terminationWithdrawn
  | .disabled _ => subU s.info.lockupAmount s.info.terminationWithdrawn

/-- lockup/src/getters.rs:117-119 `get_locked_vested_amount`. -/
def getLockedVestedAmount (e : Env) (s : Lockup) (vs : Schedule) : R Nat := do
  let l ← getLockedAmount e s
  let u ← getUnvestedAmount e s vs
  subU l u

/-- lockup/src/getters.rs:163-167 `get_owners_balance`. -/
def getOwnersBalance (e : Env) (s : Lockup) : R Nat := do
  let t ← addU128 e.accountBalance (knownDeposited s)
  let l ← getLockedAmount e s
  pure (t - l)

/-- lockup/src/getters.rs:170-172 `get_balance`. -/
def getBalance (e : Env) (s : Lockup) : R Nat := addU128 e.accountBalance (knownDeposited s)

/-- lockup/src/getters.rs:176-178 `get_liquid_owners_balance`. -/
def getLiquidOwnersBalance (e : Env) (s : Lockup) : R Nat := do
  let o ← getOwnersBalance e s
  pure (min o (getAccountBalance e))

/-! ## owner.rs -/

/-- lockup/src/owner.rs:12-41 `select_staking_pool`. -/
def selectStakingPool (e : Env) (s : Lockup) (pool : AccountId) : R (Lockup × Option Eff) := do
  notPayable e
  assertOwner e s
  require (e.validAccountId pool = true) "The staking pool account ID is invalid"
  assertNotSelected s
  assertNoTermination s
  pure (s, some ⟨.isWhitelisted s.whitelist pool, some (.onWhitelist pool)⟩)

/-- lockup/src/owner.rs:49-74 `unselect_staking_pool`. -/
def unselectStakingPool (e : Env) (s : Lockup) : R (Lockup × Option Eff) := do
  notPayable e
  assertOwner e s
  let si ← assertIdle s
  assertNoTermination s
  require (si.deposit = 0) "There is still a deposit on the staking pool"
  pure ({ s with staking := none }, none)

/-- The common shape of the owner's pool operations: checks, `Busy`, one promise with callback. -/
def poolOp (s : Lockup) (mk : AccountId → Eff) : R (Lockup × Option Eff) := do
  let si ← assertIdle s
  assertNoTermination s
  let s' ← setBusy s true
  pure (s', some (mk si.pool))

/-- lockup/src/owner.rs:81-120 `deposit_to_staking_pool`. -/
def depositToStakingPool (e : Env) (s : Lockup) (amount : Nat) : R (Lockup × Option Eff) := do
  notPayable e
  decodeU128 amount
  assertOwner e s
  require (amount > 0) "Amount should be positive"
  let si ← assertIdle s
  assertNoTermination s
  require (getAccountBalance e ≥ amount)
    "The balance that can be deposited to the staking pool is lower than the extra amount"
  let s' ← setBusy s true
  pure (s', some ⟨.poolDeposit si.pool amount, some (.onDeposit amount)⟩)

/-- lockup/src/owner.rs:127-166 `deposit_and_stake`. -/
def depositAndStake (e : Env) (s : Lockup) (amount : Nat) : R (Lockup × Option Eff) := do
  notPayable e
  decodeU128 amount
  assertOwner e s
  require (amount > 0) "Amount should be positive"
  let si ← assertIdle s
  assertNoTermination s
  require (getAccountBalance e ≥ amount)
    "The balance that can be deposited to the staking pool is lower than the extra amount"
  let s' ← setBusy s true
  pure (s', some ⟨.poolDepositAndStake si.pool amount, some (.onDepositAndStake amount)⟩)

/-- lockup/src/owner.rs:176-209 `refresh_staking_pool_balance`. -/
def refreshStakingPoolBalance (e : Env) (s : Lockup) : R (Lockup × Option Eff) := do
  notPayable e
  assertOwner e s
  poolOp s (fun p => ⟨.poolTotalBalance p, some .onTotalBalance⟩)

/-- lockup/src/owner.rs:216-252 `withdraw_from_staking_pool`. -/
def withdrawFromStakingPool (e : Env) (s : Lockup) (amount : Nat) : R (Lockup × Option Eff) := do
  notPayable e
  decodeU128 amount
  assertOwner e s
  require (amount > 0) "Amount should be positive"
  poolOp s (fun p => ⟨.poolWithdraw p amount, some (.onWithdraw amount)⟩)

/-- lockup/src/owner.rs:259-294 `withdraw_all_from_staking_pool`. -/
def withdrawAllFromStakingPool (e : Env) (s : Lockup) : R (Lockup × Option Eff) := do
  notPayable e
  assertOwner e s
  poolOp s (fun p => ⟨.poolUnstakedBalance p, some .onUnstakedToWithdrawByOwner⟩)

/-- lockup/src/owner.rs:301-337 `stake`. -/
def stake (e : Env) (s : Lockup) (amount : Nat) : R (Lockup × Option Eff) := do
  notPayable e
  decodeU128 amount
  assertOwner e s
  require (amount > 0) "Amount should be positive"
  poolOp s (fun p => ⟨.poolStake p amount, some (.onStake amount)⟩)

/-- lockup/src/owner.rs:344-380 `unstake`. -/
def unstake (e : Env) (s : Lockup) (amount : Nat) : R (Lockup × Option Eff) := do
  notPayable e
  decodeU128 amount
  assertOwner e s
  require (amount > 0) "Amount should be positive"
  poolOp s (fun p => ⟨.poolUnstake p amount, some (.onUnstake amount)⟩)

/-- lockup/src/owner.rs:387-419 `unstake_all`. -/
def unstakeAll (e : Env) (s : Lockup) : R (Lockup × Option Eff) := do
  notPayable e
  assertOwner e s
  poolOp s (fun p => ⟨.poolUnstakeAll p, some .onUnstakeAll⟩)

/-- lockup/src/owner.rs:428-458 `check_transfers_vote` (`assert_transfers_disabled` is the match). -/
def checkTransfersVote (e : Env) (s : Lockup) : R (Lockup × Option Eff) := do
  notPayable e
  assertOwner e s
  match s.info.transfers with
  | .enabled _ => throw "Transfers are already enabled"
  | .disabled poll => do
    assertNoTermination s
    pure (s, some ⟨.getResult poll, some .onPollResult⟩)

/-- lockup/src/owner.rs:467-487 `transfer`. -/
def transfer (e : Env) (s : Lockup) (amount : Nat) (receiver : AccountId) :
    R (Lockup × Option Eff) := do
  notPayable e
  decodeU128 amount
  assertOwner e s
  require (amount > 0) "Amount should be positive"
  require (e.validAccountId receiver = true) "The receiver account ID is invalid"
  assertTransfersEnabled s
  assertNoStakingOrIdle s
  assertNoTermination s
  let l ← getLiquidOwnersBalance e s
  require (l ≥ amount)
    "The available liquid balance is smaller than the requested transfer amount"
  pure (s, some ⟨.transfer receiver amount, none⟩)

/-- lockup/src/owner.rs:502-514 `add_full_access_key`. -/
def addFullAccessKey (e : Env) (s : Lockup) (key : PublicKey) : R (Lockup × Option Eff) := do
  notPayable e
  assertOwner e s
  assertTransfersEnabled s
  assertNoStakingOrIdle s
  assertNoTermination s
  let l ← getLockedAmount e s
  require (l = 0) "Tokens are still locked/unvested"
  pure (s, some ⟨.addFullAccessKey key, none⟩)

/-! ## foundation.rs -/

/-- lockup/src/foundation.rs:15-47 `terminate_vesting`. (`decodeSchedule` stands for the decoding of
the argument; a stored schedule was decoded in `new`.) -/
def terminateVesting (e : Env) (s : Lockup) (arg : Option ScheduleWithSalt) :
    R (Lockup × Option Eff) := do
  notPayable e
  assertFoundation e s
  let vs ← assertVesting e s arg
  decodeSchedule vs
  let unvested ← getUnvestedAmount e s vs
  require (unvested > 0) "The account is fully vested"
  let deficit := unvested - getAccountBalance e
  let status := if deficit > 0 ∧ s.staking.isSome = true then TStatus.terminatedWithDeficit
    else TStatus.readyToWithdraw
  pure ({ s with vesting := .terminating unvested status }, none)

/-- lockup/src/foundation.rs:58-127 `termination_prepare_to_withdraw`. -/
def terminationPrepare (e : Env) (s : Lockup) : R (Lockup × Option Eff) := do
  notPayable e
  assertFoundation e s
  let si ← assertIdle s
  match terminationStatus s with
  | none => throw "There is no termination in progress"
  | some .unstakingInProgress => throw "Another transaction is already in progress."
  | some .withdrawingFromPool => throw "Another transaction is already in progress."
  | some .withdrawingFromAccount => throw "Another transaction is already in progress."
  | some .readyToWithdraw => throw "The account is ready to withdraw unvested balance."
  | some .terminatedWithDeficit => do
    let s1 ← setTermination s .unstakingInProgress
    let s2 ← setBusy s1 true
    pure (s2, some ⟨.poolStakedBalance si.pool, some .onStakedToUnstake⟩)
  | some .everythingUnstaked => do
    let s1 ← setTermination s .withdrawingFromPool
    let s2 ← setBusy s1 true
    pure (s2, some ⟨.poolUnstakedBalance si.pool, some .onUnstakedToWithdraw⟩)

/-- lockup/src/foundation.rs:134-174 `termination_withdraw`. -/
def terminationWithdraw (e : Env) (s : Lockup) (receiver : AccountId) :
    R (Lockup × Option Eff) := do
  notPayable e
  assertFoundation e s
  require (e.validAccountId receiver = true) "The receiver account ID is invalid"
  require (terminationStatus s = some .readyToWithdraw)
    "Termination status is not ready to withdraw"
  let amount := min (terminatedUnvested s) (getAccountBalance e)
  require (amount > 0) "The account doesn't have enough liquid balance to withdraw any amount"
  let s' ← setTermination s .withdrawingFromAccount
  pure (s', some ⟨.transfer receiver amount, some (.onWithdrawUnvested amount receiver)⟩)

/-! ## Callbacks -/

/-- near-sdk 3.1.0 `assert_self`. -/
def assertSelf (e : Env) : R Unit := require (e.predecessor = e.self) "Method is private"

/-- near-sdk 3.1.0 `is_promise_success`: exactly one result is expected. -/
def isPromiseSuccess (e : Env) : R Bool :=
  match e.result with
  | none => throw "Contract expected a result on the callback"
  | some .failed => pure false
  | some _ => pure true

/-- `#[callback] x: bool`: the promise must have succeeded and decode. -/
def callbackBool (e : Env) : R Bool :=
  match e.result with
  | some (.bool b) => pure b
  | _ => throw "Callback computation was not successful"

/-- `#[callback] x: WrappedBalance`. -/
def callbackBalance (e : Env) : R Nat :=
  match e.result with
  | some (.balance n) => do
    decodeU128 n
    pure n
  | _ => throw "Callback computation was not successful"

/-- `#[callback] x: PollResult`. -/
def callbackPoll (e : Env) : R (Option Nat) :=
  match e.result with
  | some (.poll r) => do
    decodeOptU64 r
    pure r
  | _ => throw "Callback computation was not successful"

/-- `self.staking_information.as_ref().unwrap()`. -/
def selected (s : Lockup) : R StakingInfo :=
  match s.staking with
  | none => throw "called `Option::unwrap()` on a `None` value"
  | some si => pure si

/-- lockup/src/owner_callbacks.rs:7-25 `on_whitelist_is_whitelisted`. -/
def onWhitelist (e : Env) (s : Lockup) (pool : AccountId) : R (Lockup × Option Eff) := do
  let ok ← callbackBool e
  assertSelf e
  require (ok = true) "The given staking pool account ID is not whitelisted"
  assertNotSelected s
  assertNoTermination s
  pure ({ s with staking := some ⟨pool, false, 0⟩ }, none)

/-- The deposit grows by `amount`, checked `u128` (lockup/src/owner_callbacks.rs:36, 74). -/
def increaseDeposit (s : Lockup) (amount : Nat) : R Lockup := do
  let si ← selected s
  let d ← addU128 si.deposit amount
  pure { s with staking := some { si with deposit := d } }

/-- The deposit shrinks by `amount`, saturating (lockup/src/owner_callbacks.rs:112-119). -/
def decreaseDeposit (s : Lockup) (amount : Nat) : R Lockup := do
  let si ← selected s
  pure { s with staking := some { si with deposit := si.deposit - amount } }

/-- lockup/src/owner_callbacks.rs:29-62 `on_staking_pool_deposit`, 67-100
`on_staking_pool_deposit_and_stake` (same effect). -/
def onDeposit (e : Env) (s : Lockup) (amount : Nat) : R (Lockup × Option Eff) := do
  assertSelf e
  let ok ← isPromiseSuccess e
  let s1 ← setBusy s false
  if ok then do
    let s2 ← increaseDeposit s1 amount
    pure (s2, none)
  else pure (s1, none)

/-- lockup/src/owner_callbacks.rs:105-145 `on_staking_pool_withdraw`. -/
def onWithdraw (e : Env) (s : Lockup) (amount : Nat) : R (Lockup × Option Eff) := do
  assertSelf e
  let ok ← isPromiseSuccess e
  let s1 ← setBusy s false
  if ok then do
    let s2 ← decreaseDeposit s1 amount
    pure (s2, none)
  else pure (s1, none)

/-- lockup/src/owner_callbacks.rs:149-181 `on_staking_pool_stake`, 185-217
`on_staking_pool_unstake`, 221-251 `on_staking_pool_unstake_all` (same effect). -/
def onStakeLike (e : Env) (s : Lockup) : R (Lockup × Option Eff) := do
  assertSelf e
  let _ ← isPromiseSuccess e
  let s1 ← setBusy s false
  pure (s1, none)

/-- lockup/src/owner_callbacks.rs:254-278 `on_get_result_from_transfer_poll`. -/
def onPollResult (e : Env) (s : Lockup) : R (Lockup × Option Eff) := do
  let r ← callbackPoll e
  assertSelf e
  assertTransfersDisabled s
  match r with
  | some ts => pure ({ s with info := { s.info with transfers := .enabled ts } }, none)
  | none => pure (s, none)

/-- lockup/src/owner_callbacks.rs:281-294 `on_get_account_total_balance`. -/
def onTotalBalance (e : Env) (s : Lockup) : R (Lockup × Option Eff) := do
  let total ← callbackBalance e
  assertSelf e
  let s1 ← setBusy s false
  let si ← selected s1
  pure ({ s1 with staking := some { si with deposit := total } }, none)

/-- lockup/src/owner_callbacks.rs:298-339
`on_get_account_unstaked_balance_to_withdraw_by_owner`. -/
def onUnstakedToWithdrawByOwner (e : Env) (s : Lockup) : R (Lockup × Option Eff) := do
  let unstaked ← callbackBalance e
  assertSelf e
  if unstaked > 0 then do
    let si ← selected s
    pure (s, some ⟨.poolWithdraw si.pool unstaked, some (.onWithdraw unstaked)⟩)
  else do
    let s1 ← setBusy s false
    pure (s1, none)

/-- lockup/src/foundation_callbacks.rs:9-53 `on_get_account_staked_balance_to_unstake`. -/
def onStakedToUnstake (e : Env) (s : Lockup) : R (Lockup × Option Eff) := do
  let staked ← callbackBalance e
  assertSelf e
  if staked > 0 then do
    let si ← selected s
    pure (s, some ⟨.poolUnstake si.pool staked, some (.onUnstakeForTermination staked)⟩)
  else do
    let s1 ← setBusy s false
    let s2 ← setTermination s1 .everythingUnstaked
    pure (s2, none)

/-- lockup/src/foundation_callbacks.rs:57-91 `on_staking_pool_unstake_for_termination`. -/
def onUnstakeForTermination (e : Env) (s : Lockup) (_amount : Nat) : R (Lockup × Option Eff) := do
  assertSelf e
  let ok ← isPromiseSuccess e
  let s1 ← setBusy s false
  let s2 ← setTermination s1 (if ok then .everythingUnstaked else .terminatedWithDeficit)
  pure (s2, none)

/-- lockup/src/foundation_callbacks.rs:95-139 `on_get_account_unstaked_balance_to_withdraw`. -/
def onUnstakedToWithdraw (e : Env) (s : Lockup) : R (Lockup × Option Eff) := do
  let unstaked ← callbackBalance e
  assertSelf e
  if unstaked > 0 then do
    let si ← selected s
    pure (s, some ⟨.poolWithdraw si.pool unstaked, some (.onWithdrawForTermination unstaked)⟩)
  else do
    let s1 ← setBusy s false
    let s2 ← setTermination s1 .readyToWithdraw
    pure (s2, none)

/-- lockup/src/foundation_callbacks.rs:143-185 `on_staking_pool_withdraw_for_termination`. -/
def onWithdrawForTermination (e : Env) (s : Lockup) (amount : Nat) : R (Lockup × Option Eff) := do
  assertSelf e
  let ok ← isPromiseSuccess e
  let s1 ← setBusy s false
  if ok then do
    let s2 ← setTermination s1 .readyToWithdraw
    let s3 ← decreaseDeposit s2 amount
    pure (s3, none)
  else do
    let s2 ← setTermination s1 .everythingUnstaked
    pure (s2, none)

/-- lockup/src/foundation_callbacks.rs:204-234: bookkeeping after a successful withdrawal. -/
def recordWithdrawn (s : Lockup) (amount : Nat) : R Lockup := do
  let w ← addU128 s.info.terminationWithdrawn amount
  let unvested := terminatedUnvested s
  if unvested > amount then
    pure { s with info := { s.info with terminationWithdrawn := w },
                  vesting := .terminating (unvested - amount) .readyToWithdraw }
  else
    pure { s with info := { s.info with terminationWithdrawn := w },
                  vesting := .none, foundation := none }

/-- lockup/src/foundation_callbacks.rs:188-241 `on_withdraw_unvested_amount`. -/
def onWithdrawUnvested (e : Env) (s : Lockup) (amount : Nat) : R (Lockup × Option Eff) := do
  assertSelf e
  let ok ← isPromiseSuccess e
  if ok then do
    let s1 ← recordWithdrawn s amount
    pure (s1, none)
  else do
    let s1 ← setTermination s .readyToWithdraw
    pure (s1, none)

/-- Dispatch of the callbacks. All of them are plain public methods (no deposit accepted) guarded by
`assert_self`. -/
def execCallback (e : Env) (s : Lockup) : Callback → R (Lockup × Option Eff)
  | .onWhitelist p => onWhitelist e s p
  | .onDeposit a => onDeposit e s a
  | .onDepositAndStake a => onDeposit e s a
  | .onWithdraw a => onWithdraw e s a
  | .onStake _ => onStakeLike e s
  | .onUnstake _ => onStakeLike e s
  | .onUnstakeAll => onStakeLike e s
  | .onPollResult => onPollResult e s
  | .onTotalBalance => onTotalBalance e s
  | .onUnstakedToWithdrawByOwner => onUnstakedToWithdrawByOwner e s
  | .onStakedToUnstake => onStakedToUnstake e s
  | .onUnstakeForTermination a => onUnstakeForTermination e s a
  | .onUnstakedToWithdraw => onUnstakedToWithdraw e s
  | .onWithdrawForTermination a => onWithdrawForTermination e s a
  | .onWithdrawUnvested a _ => onWithdrawUnvested e s a

/-- Owner methods (lockup/src/owner.rs). -/
inductive OwnerCall where
  | selectStakingPool (pool : AccountId)
  | unselectStakingPool
  | depositToStakingPool (amount : Nat)
  | depositAndStake (amount : Nat)
  | refreshStakingPoolBalance
  | withdrawFromStakingPool (amount : Nat)
  | withdrawAllFromStakingPool
  | stake (amount : Nat)
  | unstake (amount : Nat)
  | unstakeAll
  | checkTransfersVote
  | transfer (amount : Nat) (receiver : AccountId)
  | addFullAccessKey (key : PublicKey)
deriving DecidableEq, Repr

/-- Foundation methods (lockup/src/foundation.rs). -/
inductive FoundationCall where
  | terminateVesting (arg : Option ScheduleWithSalt)
  | terminationPrepareToWithdraw
  | terminationWithdraw (receiver : AccountId)
deriving DecidableEq, Repr

/-- All state changing methods. -/
inductive Call where
  | owner (c : OwnerCall)
  | foundation (c : FoundationCall)
  | callback (c : Callback)
deriving DecidableEq, Repr

/-- Dispatch of the owner methods. -/
def execOwner (e : Env) (s : Lockup) : OwnerCall → R (Lockup × Option Eff)
  | .selectStakingPool p => selectStakingPool e s p
  | .unselectStakingPool => unselectStakingPool e s
  | .depositToStakingPool a => depositToStakingPool e s a
  | .depositAndStake a => depositAndStake e s a
  | .refreshStakingPoolBalance => refreshStakingPoolBalance e s
  | .withdrawFromStakingPool a => withdrawFromStakingPool e s a
  | .withdrawAllFromStakingPool => withdrawAllFromStakingPool e s
  | .stake a => stake e s a
  | .unstake a => unstake e s a
  | .unstakeAll => unstakeAll e s
  | .checkTransfersVote => checkTransfersVote e s
  | .transfer a r => transfer e s a r
  | .addFullAccessKey k => addFullAccessKey e s k

/-- Dispatch of the foundation methods. -/
def execFoundation (e : Env) (s : Lockup) : FoundationCall → R (Lockup × Option Eff)
  | .terminateVesting a => terminateVesting e s a
  | .terminationPrepareToWithdraw => terminationPrepare e s
  | .terminationWithdraw r => terminationWithdraw e s r

/-- Dispatch of all methods. -/
def exec (e : Env) (s : Lockup) : Call → R (Lockup × Option Eff)
  | .owner c => execOwner e s c
  | .foundation c => execFoundation e s c
  | .callback c => do
    notPayable e
    execCallback e s c

end Verif.Lockup
