import Verif.Factory.Runtime
import Verif.StakingPool.World
import Verif.Whitelist.Model

/-!
# Model of the staking pool factory (staking-pool-factory/src/lib.rs, near-sdk 2.0.0)

The factory, the accounts it creates, the whitelist contract (Verif.Whitelist) and the receipts in
flight between them.
-/

namespace Verif.PoolFactory

open Verif Verif.Factory

/-- staking-pool-factory/src/lib.rs:11 `MIN_ATTACHED_BALANCE`. -/
def minAttachedBalance : Nat := 30000000000000000000000000

/-- staking-pool-factory/src/lib.rs:38-46 `StakingPoolFactory`. An `UnorderedSet` is a map to `Unit`. -/
structure State where
  whitelistId : AccountId
  poolIds : UMap AccountId Unit

/-- What a call sees. -/
structure Env where
  self : AccountId
  predecessor : AccountId
  attachedDeposit : Nat
  /-- includes the attached deposit -/
  accountBalance : Nat
  /-- success flags of the promises a callback waits for -/
  promiseResults : List Bool
  /-- `env::is_valid_account_id` -/
  validAccountId : AccountId → Bool

/-- The batch of staking-pool-factory/src/lib.rs:172-186: create the account, transfer, deploy the code,
call `new` with `StakingPoolArgs` (72-81). -/
structure Batch where
  receiver : AccountId
  deposit : Nat
  code : Code
  owner : AccountId
  key : PublicKey
  fee : StakingPool.Fee

/-- Promises of the factory. -/
inductive Eff where
  /-- the batch, then `on_staking_pool_create(id, deposit, caller)` on the factory -/
  | create (b : Batch) (id : AccountId) (deposit : Nat) (caller : AccountId)
  /-- `add_staking_pool(id)` on the whitelist -/
  | whitelist (contract id : AccountId)
  | transfer (receiver : AccountId) (amount : Nat)

/-- Methods without `#[payable]` reject deposits. -/
def notPayable (e : Env) : R Unit := require (e.attachedDeposit = 0) "Method doesn't accept deposit"

/-- staking-pool-factory/src/lib.rs:105-115 `new`. -/
def new (e : Env) (stateExists : Bool) (whitelistId : AccountId) : R State := do
  notPayable e
  require (stateExists = false) "The contract is already initialized"
  require (e.validAccountId whitelistId = true) "The staking pool whitelist account ID is invalid"
  pure { whitelistId := whitelistId, poolIds := .empty }

/-- staking-pool-factory/src/lib.rs:136-195 `create_staking_pool`. The fee fields are `u32`, the
attached deposit is a `u128`. The host debits the transferred amount, which is the attached deposit. -/
def createStakingPool (e : Env) (s : State) (poolId owner : AccountId) (key : PublicKey)
    (fee : StakingPool.Fee) : R (State × List Eff) := do
  fee.decode
  require (e.attachedDeposit < two128) "not a u128"
  require (e.attachedDeposit ≥ minAttachedBalance)
    "Not enough attached deposit to complete staking pool creation"
  require ('.' ∉ poolId.toList) "The staking pool ID can't contain `.`"
  require (e.validAccountId (subAccount poolId e.self) = true) "The staking pool account ID is invalid"
  require (e.validAccountId owner = true) "The owner account ID is invalid"
  fee.assertValid
  require (s.poolIds.contains (subAccount poolId e.self) = false)
    "The staking pool account ID already exists"
  pure ({ s with poolIds := s.poolIds.insert (subAccount poolId e.self) () },
    [.create
      { receiver := subAccount poolId e.self, deposit := e.attachedDeposit, code := .stakingPool,
        owner := owner, key := key, fee := fee }
      (subAccount poolId e.self) e.attachedDeposit e.predecessor])

/-- staking-pool-factory/src/utils.rs:7-17 `is_promise_success`. -/
def isPromiseSuccess (e : Env) : R Bool :=
  match e.promiseResults with
  | [b] => pure b
  | _ => throw "Contract expected a result on the callback"

/-- staking-pool-factory/src/lib.rs:200-239 `on_staking_pool_create`, with the returned value
(`none`: the result of the promise). The host rejects a transfer of more than the balance. -/
def onStakingPoolCreate (e : Env) (s : State) (id : AccountId) (deposit : Nat) (caller : AccountId) :
    R (State × List Eff × Option Bool) := do
  notPayable e
  require (e.predecessor = e.self) "assertion failed"
  let created ← isPromiseSuccess e
  if created then pure (s, [.whitelist s.whitelistId id], none)
  else do
    require (deposit ≤ e.accountBalance) "Exceeded the account balance"
    pure ({ s with poolIds := s.poolIds.remove id }, [.transfer caller deposit], some false)

/-- staking-pool-factory/src/lib.rs:119-121 `get_min_attached_balance`. -/
def getMinAttachedBalance : Nat := minAttachedBalance

/-- staking-pool-factory/src/lib.rs:124-126 `get_number_of_staking_pools_created`. -/
def getNumberOfPools (s : State) : Nat := s.poolIds.len

/-! ## The world -/

/-- Constants of the deployment. -/
structure Cfg where
  self : AccountId
  validAccountId : AccountId → Bool
  validPublicKey : PublicKey → Bool
  /-- accounts that already exist when the factory is initialized -/
  existing : AccountId → Bool

/-- An account created by the factory: its code, the world of the pool right after `new`, and who asked
for it. -/
structure Created where
  code : Code
  pool : StakingPool.World
  deposit : Nat
  caller : AccountId

/-- Receipts in flight. -/
inductive Receipt where
  | create (b : Batch) (id : AccountId) (deposit : Nat) (caller : AccountId)
  | callback (id : AccountId) (deposit : Nat) (caller : AccountId) (created : Bool)
  | whitelist (contract id : AccountId)

/-- Global state; `bal` are the tokens of the factory. The last two fields are history variables:
nothing reads them. -/
structure World where
  c : State
  bal : Nat
  epoch : Nat
  accounts : UMap AccountId Created
  receipts : List Receipt
  wl : Whitelist.State
  /-- deposits attached to accepted creations so far, by caller -/
  attachedBy : AccountId → Nat
  /-- transferred back so far, by receiver -/
  refunded : AccountId → Nat

/-- Events. -/
inductive Ev where
  | create (who : AccountId) (attached : Nat) (poolId owner : AccountId) (key : PublicKey)
      (fee : StakingPool.Fee)
  /-- somebody calls the callback directly -/
  | callCallback (who : AccountId) (attached : Nat) (id : AccountId) (deposit : Nat) (caller : AccountId)
  /-- the `i`-th receipt is executed; `ok = false`: the runtime fails it for a reason of its own (gas,
  …); only used for account creations -/
  | deliver (i : Nat) (ok : Bool)
  /-- somebody calls the whitelist contract -/
  | whitelistCall (ev : Whitelist.Ev)
  | income (amount : Nat)
  | epochs (n : Nat)

/-- Environment of a call of the factory. -/
def mkEnv (cfg : Cfg) (w : World) (who : AccountId) (att : Nat) (results : List Bool) : Env :=
  { self := cfg.self, predecessor := who, attachedDeposit := att, accountBalance := w.bal + att,
    promiseResults := results, validAccountId := cfg.validAccountId }

/-- The receipt of a promise. -/
def Eff.receipt : Eff → List Receipt
  | .create b id d c => [.create b id d c]
  | .whitelist c id => [.whitelist c id]
  | .transfer _ _ => []

/-- Tokens that leave with the promise. -/
def Eff.out : Eff → Nat
  | .create b _ _ _ => b.deposit
  | .whitelist _ _ => 0
  | .transfer _ a => a

/-- Transferred to `a` by the promise. -/
def Eff.paidTo (a : AccountId) : Eff → Nat
  | .transfer r x => if r = a then x else 0
  | _ => 0

/-- The staking pool configuration of an account created by the factory. -/
def poolCfg (cfg : Cfg) (id : AccountId) : StakingPool.Cfg :=
  { self := id, validAccountId := cfg.validAccountId, validPublicKey := cfg.validPublicKey }

/-- The runtime executes the batch: it is all or nothing. -/
def deploy (cfg : Cfg) (w : World) (b : Batch) (caller : AccountId) : Option Created :=
  if directSub cfg.self b.receiver = true ∧ cfg.existing b.receiver = false ∧
      w.accounts.contains b.receiver = false then
    match StakingPool.new (StakingPool.initEnv (poolCfg cfg b.receiver) cfg.self b.deposit w.epoch) false
        b.owner b.key b.fee with
    | .ok (p, effs) =>
      some ⟨b.code, StakingPool.initWorld p effs b.deposit w.epoch, b.deposit, caller⟩
    | .error _ => none
  else none

/-- The world after a successful call of the factory with deposit `att`. -/
def applyCall (w : World) (att : Nat) (s : State) (effs : List Eff) : World :=
  { w with
    c := s
    bal := w.bal + att - (effs.map Eff.out).sum
    receipts := w.receipts ++ effs.flatMap Eff.receipt
    refunded := fun a => w.refunded a + (effs.map (Eff.paidTo a)).sum }

/-- Executing a receipt that has been taken from the list. A failed batch returns its deposit to the
factory. -/
def execReceipt (cfg : Cfg) (w : World) (ok : Bool) : Receipt → World
  | .create b id d caller =>
    match (if ok then deploy cfg w b caller else none) with
    | some acc =>
      { w with
        accounts := w.accounts.insert b.receiver acc
        receipts := w.receipts ++ [.callback id d caller true] }
    | none =>
      { w with
        bal := w.bal + b.deposit
        receipts := w.receipts ++ [.callback id d caller false] }
  | .callback id d caller created =>
    match onStakingPoolCreate (mkEnv cfg w cfg.self 0 [created]) w.c id d caller with
    | .ok (s, effs, _) => applyCall w 0 s effs
    | .error _ => w
  | .whitelist contract id =>
    if contract = w.c.whitelistId then
      { w with wl := Whitelist.step cfg.validAccountId w.wl ⟨cfg.self, 0, .addPool id⟩ }
    else w

/-- One event. -/
def step (cfg : Cfg) (w : World) : Ev → World
  | .create who att poolId owner key fee =>
    match createStakingPool (mkEnv cfg w who att []) w.c poolId owner key fee with
    | .ok (s, effs) =>
      let w' := applyCall w att s effs
      { w' with attachedBy := fun a => w.attachedBy a + if who = a then att else 0 }
    | .error _ => w
  | .callCallback who att id d caller =>
    match onStakingPoolCreate (mkEnv cfg w who att []) w.c id d caller with
    | .ok (s, effs, _) => applyCall w att s effs
    | .error _ => w
  | .deliver i ok =>
    match w.receipts[i]? with
    | some r => execReceipt cfg { w with receipts := w.receipts.eraseIdx i } ok r
    | none => w
  | .whitelistCall ev =>
    -- the factory account only makes the calls its contract makes
    if ev.who = cfg.self then w
    else { w with wl := Whitelist.step cfg.validAccountId w.wl ev }
  | .income n => { w with bal := w.bal + n }
  | .epochs n => { w with epoch := w.epoch + n }

/-- A history. -/
def run (cfg : Cfg) (w : World) (evs : List Ev) : World := evs.foldl (step cfg) w

/-- Right after the initialization of the factory; the whitelist contract may have any history. -/
def Started (cfg : Cfg) (w0 : World) : Prop :=
  ∃ who whitelistId s bal epoch fnd wl0 wevs,
    new { self := cfg.self, predecessor := who, attachedDeposit := 0, accountBalance := bal,
          promiseResults := [], validAccountId := cfg.validAccountId } false whitelistId = .ok s ∧
    Whitelist.Started cfg.validAccountId fnd wl0 ∧
    w0 = { c := s, bal := bal, epoch := epoch, accounts := .empty, receipts := [],
           wl := Whitelist.run cfg.validAccountId wl0 wevs,
           attachedBy := fun _ => 0, refunded := fun _ => 0 }

/-- Tokens from outside. -/
def income : List Ev → Nat
  | [] => 0
  | .income n :: t => n + income t
  | _ :: t => income t

end Verif.PoolFactory
