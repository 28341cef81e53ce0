import Verif.Factory.AccountIds
import Verif.Lockup.World

/-!
# Model of the lockup factory (lockup-factory/src/lib.rs, near-sdk 3.1.0)

The factory, the lockup accounts it creates and the receipts in flight.
-/

namespace Verif.LockupFactory

open Verif Verif.Factory

/-- lockup-factory/src/lib.rs:13 `TRANSFERS_STARTED`. -/
def transfersStarted : Nat := 1602614338293769340

/-- lockup-factory/src/lib.rs:34 `MIN_ATTACHED_BALANCE`. -/
def minAttachedBalance : Nat := 3500000000000000000000000

/-- lockup-factory/src/lib.rs:47-52 `LockupFactory`. -/
structure State where
  whitelist : AccountId
  foundation : AccountId
deriving DecidableEq, Repr

/-- What a call sees. -/
structure Env where
  self : AccountId
  predecessor : AccountId
  attachedDeposit : Nat
  /-- includes the attached deposit -/
  accountBalance : Nat
  /-- success flags of the promises a callback waits for -/
  promiseResults : List Bool
  /-- `env::is_valid_account_id` -/
  validAccountId : AccountId → Bool
  /-- `env::sha256` -/
  sha256 : List UInt8 → List UInt8

/-- The batch of lockup-factory/src/lib.rs:136-157: create the account, deploy the code, transfer, call
`new` with `LockupArgs` (54-65). -/
structure Batch where
  receiver : AccountId
  deposit : Nat
  code : Code
  args : Lockup.NewArgs

/-- Promises of the factory. -/
inductive Eff where
  /-- the batch, then `on_lockup_create(id, deposit, caller)` on the factory -/
  | create (b : Batch) (id : AccountId) (deposit : Nat) (caller : AccountId)
  | transfer (receiver : AccountId) (amount : Nat)

/-- Methods without `#[payable]` reject deposits. -/
def notPayable (e : Env) : R Unit := require (e.attachedDeposit = 0) "Method doesn't accept deposit"

/-- JSON decoding of a `ValidAccountId`. -/
def decodeId (e : Env) (a : AccountId) : R Unit :=
  require (e.validAccountId a = true) "Failed to deserialize input from JSON."

/-- JSON decoding of an optional `ValidAccountId`. -/
def decodeOptId (e : Env) : Option AccountId → R Unit
  | none => pure ()
  | some a => decodeId e a

/-- JSON decoding of the vesting schedule. -/
def decodeVesting : Option Lockup.ScheduleOrHash → R Unit
  | some (.schedule vs) => Lockup.decodeSchedule vs
  | _ => pure ()

/-- lockup-factory/src/lib.rs:75-90 `new`. -/
def new (e : Env) (stateExists : Bool) (whitelist foundation : AccountId) : R State := do
  notPayable e
  decodeId e whitelist
  decodeId e foundation
  require (stateExists = false) "The contract is already initialized"
  require (e.self.toList.length ≤ 23) "The account ID of this contract can't be more than 23 characters"
  pure { whitelist := whitelist, foundation := foundation }

/-- lockup-factory/src/lib.rs:119-121: the account id of the lockup of an owner. -/
def lockupId (sha256 : List UInt8 → List UInt8) (self owner : AccountId) : AccountId :=
  subAccount (String.ofList (AccountIds.hexEncode ((sha256 owner.toUTF8.toList).take 20))) self

/-- Arguments of `create` (lockup-factory/src/lib.rs:108-116). -/
structure CreateArgs where
  owner : AccountId
  lockupDuration : Nat
  lockupTimestamp : Option Nat
  vesting : Option Lockup.ScheduleOrHash
  releaseDuration : Option Nat
  whitelist : Option AccountId

/-- lockup-factory/src/lib.rs:123-155: the arguments for the lockup. -/
def newArgs (s : State) (a : CreateArgs) : Lockup.NewArgs :=
  { owner := a.owner
    lockupDuration := a.lockupDuration
    lockupTimestamp := a.lockupTimestamp
    transfers := .enabled transfersStarted
    vesting := a.vesting
    releaseDuration := a.releaseDuration
    whitelist := match a.whitelist with
      | some w => w
      | none => s.whitelist
    foundation := if a.vesting.isSome then some s.foundation else none }

/-- lockup-factory/src/lib.rs:107-166 `create`. The host rejects a promise to an invalid account id, and
debits the transferred amount, which is the attached deposit. -/
def create (e : Env) (s : State) (a : CreateArgs) : R (State × List Eff) := do
  decodeId e a.owner
  Lockup.decodeU64 a.lockupDuration
  Lockup.decodeOptU64 a.lockupTimestamp
  decodeVesting a.vesting
  Lockup.decodeOptU64 a.releaseDuration
  decodeOptId e a.whitelist
  require (e.attachedDeposit < two128) "not a u128"
  require (e.attachedDeposit ≥ minAttachedBalance) "Not enough attached deposit"
  require (e.validAccountId (lockupId e.sha256 e.self a.owner) = true) "Invalid account ID"
  pure (s,
    [.create
      { receiver := lockupId e.sha256 e.self a.owner, deposit := e.attachedDeposit, code := .lockup,
        args := newArgs s a }
      (lockupId e.sha256 e.self a.owner) e.attachedDeposit e.predecessor])

/-- lockup-factory/src/utils.rs:7-13 `is_promise_success`. -/
def isPromiseSuccess (e : Env) : R Bool :=
  match e.promiseResults with
  | [b] => pure b
  | _ => throw "Contract expected a result on the callback"

/-- lockup-factory/src/lib.rs:171-198 `on_lockup_create`, with the returned value. The host rejects a
transfer of more than the balance. -/
def onLockupCreate (e : Env) (s : State) (_id : AccountId) (deposit : Nat) (caller : AccountId) :
    R (State × List Eff × Bool) := do
  notPayable e
  require (e.predecessor = e.self) "assertion failed"
  let created ← isPromiseSuccess e
  if created then pure (s, [], true)
  else do
    require (deposit ≤ e.accountBalance) "Exceeded the account balance"
    pure (s, [.transfer caller deposit], false)

/-- lockup-factory/src/lib.rs:93-105: the getters. -/
def getFoundation (s : State) : AccountId := s.foundation
/-- See `getFoundation`. -/
def getMaster (e : Env) : AccountId := e.self
/-- See `getFoundation`. -/
def getMinAttachedBalance : Nat := minAttachedBalance

/-! ## The world -/

/-- Constants of the deployment. -/
structure Cfg where
  self : AccountId
  validAccountId : AccountId → Bool
  sha256 : List UInt8 → List UInt8
  /-- accounts that already exist when the factory is initialized -/
  existing : AccountId → Bool

/-- An account created by the factory: its code, the arguments of `new`, the world of the lockup right
after `new`, and who asked for it. -/
structure Created where
  code : Code
  args : Lockup.NewArgs
  lockup : Lockup.World
  deposit : Nat
  caller : AccountId

/-- Receipts in flight. -/
inductive Receipt where
  | create (b : Batch) (id : AccountId) (deposit : Nat) (caller : AccountId)
  | callback (id : AccountId) (deposit : Nat) (caller : AccountId) (created : Bool)

/-- Global state; `bal` are the tokens of the factory. The last two fields are history variables:
nothing reads them. -/
structure World where
  c : State
  bal : Nat
  now : Nat
  accounts : UMap AccountId Created
  receipts : List Receipt
  /-- deposits attached to accepted creations so far, by caller -/
  attachedBy : AccountId → Nat
  /-- transferred back so far, by receiver -/
  refunded : AccountId → Nat

/-- Events. -/
inductive Ev where
  | create (who : AccountId) (attached : Nat) (a : CreateArgs)
  /-- somebody calls the callback directly -/
  | callCallback (who : AccountId) (attached : Nat) (id : AccountId) (deposit : Nat) (caller : AccountId)
  /-- the `i`-th receipt is executed; `ok = false`: the runtime fails it for a reason of its own (gas,
  …); only used for account creations -/
  | deliver (i : Nat) (ok : Bool)
  | income (amount : Nat)
  | tick (dt : Nat)

/-- Environment of a call of the factory. -/
def mkEnv (cfg : Cfg) (w : World) (who : AccountId) (att : Nat) (results : List Bool) : Env :=
  { self := cfg.self, predecessor := who, attachedDeposit := att, accountBalance := w.bal + att,
    promiseResults := results, validAccountId := cfg.validAccountId, sha256 := cfg.sha256 }

/-- The receipt of a promise. -/
def Eff.receipt : Eff → List Receipt
  | .create b id d c => [.create b id d c]
  | .transfer _ _ => []

/-- Tokens that leave with the promise. -/
def Eff.out : Eff → Nat
  | .create b _ _ _ => b.deposit
  | .transfer _ a => a

/-- Transferred to `a` by the promise. -/
def Eff.paidTo (a : AccountId) : Eff → Nat
  | .transfer r x => if r = a then x else 0
  | _ => 0

/-- The lockup configuration of an account created by the factory (`honest` says how staking pools
behave later, it is not used by `new`). -/
def lockupCfg (cfg : Cfg) (honest : Bool) (id : AccountId) : Lockup.Cfg :=
  { self := id, validAccountId := cfg.validAccountId, sha256 := cfg.sha256, honestPools := honest }

/-- The runtime executes the batch: it is all or nothing. -/
def deploy (cfg : Cfg) (w : World) (b : Batch) (caller : AccountId) : Option Created :=
  if directSub cfg.self b.receiver = true ∧ cfg.existing b.receiver = false ∧
      w.accounts.contains b.receiver = false then
    match Lockup.new (Lockup.initEnv (lockupCfg cfg true b.receiver) cfg.self b.deposit w.now) false b.args with
    | .ok c => some ⟨b.code, b.args, Lockup.initWorld c b.deposit w.now, b.deposit, caller⟩
    | .error _ => none
  else none

/-- The world after a successful call of the factory with deposit `att`. -/
def applyCall (w : World) (att : Nat) (s : State) (effs : List Eff) : World :=
  { w with
    c := s
    bal := w.bal + att - (effs.map Eff.out).sum
    receipts := w.receipts ++ effs.flatMap Eff.receipt
    refunded := fun a => w.refunded a + (effs.map (Eff.paidTo a)).sum }

/-- Executing a receipt that has been taken from the list. A failed batch returns its deposit to the
factory. -/
def execReceipt (cfg : Cfg) (w : World) (ok : Bool) : Receipt → World
  | .create b id d caller =>
    match (if ok then deploy cfg w b caller else none) with
    | some acc =>
      { w with
        accounts := w.accounts.insert b.receiver acc
        receipts := w.receipts ++ [.callback id d caller true] }
    | none =>
      { w with
        bal := w.bal + b.deposit
        receipts := w.receipts ++ [.callback id d caller false] }
  | .callback id d caller created =>
    match onLockupCreate (mkEnv cfg w cfg.self 0 [created]) w.c id d caller with
    | .ok (s, effs, _) => applyCall w 0 s effs
    | .error _ => w

/-- One event. -/
def step (cfg : Cfg) (w : World) : Ev → World
  | .create who att a =>
    match create (mkEnv cfg w who att []) w.c a with
    | .ok (s, effs) =>
      let w' := applyCall w att s effs
      { w' with attachedBy := fun x => w.attachedBy x + if who = x then att else 0 }
    | .error _ => w
  | .callCallback who att id d caller =>
    match onLockupCreate (mkEnv cfg w who att []) w.c id d caller with
    | .ok (s, effs, _) => applyCall w att s effs
    | .error _ => w
  | .deliver i ok =>
    match w.receipts[i]? with
    | some r => execReceipt cfg { w with receipts := w.receipts.eraseIdx i } ok r
    | none => w
  | .income n => { w with bal := w.bal + n }
  | .tick dt => { w with now := w.now + dt }

/-- A history. -/
def run (cfg : Cfg) (w : World) (evs : List Ev) : World := evs.foldl (step cfg) w

/-- Right after the initialization of the factory. -/
def Started (cfg : Cfg) (w0 : World) : Prop :=
  ∃ who whitelist foundation s bal now,
    new { self := cfg.self, predecessor := who, attachedDeposit := 0, accountBalance := bal,
          promiseResults := [], validAccountId := cfg.validAccountId, sha256 := cfg.sha256 } false
      whitelist foundation = .ok s ∧
    w0 = { c := s, bal := bal, now := now, accounts := .empty, receipts := [],
           attachedBy := fun _ => 0, refunded := fun _ => 0 }

/-- Tokens from outside. -/
def income : List Ev → Nat
  | [] => 0
  | .income n :: t => n + income t
  | _ :: t => income t

end Verif.LockupFactory
