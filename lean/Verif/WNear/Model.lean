import Verif.Common.Basic
import Verif.Common.UMap

/-!
# Model of wrapped NEAR (w-near/src, near-sdk 3.1.0)

The contract is `near_deposit` and `near_withdraw` on top of the fungible token of
near-contract-standards 3.1.0 (NEP-141 core and NEP-145 storage management), which the macros
`impl_fungible_token_core!` and `impl_fungible_token_storage!` (w-near/src/lib.rs:43-44) expose. The
source of that dependency is not in /repo; its functions are modelled here after the published source
(`fungible_token/core_impl.rs`, `fungible_token/storage_impl.rs`), named in the comments.
-/

namespace Verif.WNear

open Verif

/-- w-near/src/lib.rs:29-31 `Contract`, i.e. `FungibleToken` of core_impl.rs: `accounts`,
`total_supply`, `account_storage_usage`. -/
structure State where
  accounts : UMap AccountId Nat
  totalSupply : Nat
  accountStorageUsage : Nat

/-- Result of the promise that `ft_resolve_transfer` waits for. -/
inductive PResult where
  | failed
  /-- a value; `none` if it is not a `U128` -/
  | value (v : Option Nat)
deriving DecidableEq, Repr

/-- What a call sees. -/
structure Env where
  self : AccountId
  predecessor : AccountId
  attachedDeposit : Nat
  /-- includes the attached deposit -/
  accountBalance : Nat
  results : List PResult
  validAccountId : AccountId → Bool
  /-- whether the host has no objection of its own (gas) -/
  hostOk : Bool

/-- Promises. -/
inductive Eff where
  | transfer (receiver : AccountId) (amount : Nat)
  /-- `ft_on_transfer(sender, amount, msg)` on the receiver, then `ft_resolve_transfer` on the contract -/
  | transferCall (sender receiver : AccountId) (amount : Nat)
deriving DecidableEq, Repr

/-- near-sdk 3.1.0 `env::STORAGE_PRICE_PER_BYTE` (`env::storage_byte_cost`). -/
def storageByteCost : Nat := 10000000000000000000

/-- Methods without `#[payable]` reject deposits. -/
def notPayable (e : Env) : R Unit := require (e.attachedDeposit = 0) "Method doesn't accept deposit"

/-- near-sdk `assert_one_yocto`. -/
def assertOneYocto (e : Env) : R Unit :=
  require (e.attachedDeposit = 1) "Requires attached deposit of exactly 1 yoctoNEAR"

/-- JSON decoding of a `ValidAccountId`. -/
def decodeId (e : Env) (a : AccountId) : R Unit :=
  require (e.validAccountId a = true) "Failed to deserialize input from JSON."

/-- JSON decoding of an `Option<ValidAccountId>`. -/
def decodeOptId (e : Env) : Option AccountId → R Unit
  | some a => decodeId e a
  | none => pure ()

/-- JSON decoding of a `U128`. -/
def decodeU128 (n : Nat) : R Unit := require (n < two128) "Failed to deserialize input from JSON."

/-- w-near/src/lib.rs:35-40 `new`; `usage` is the storage measured by
`measure_account_storage_usage` (a `u64`). -/
def new (e : Env) (stateExists : Bool) (usage : Nat) : R State := do
  notPayable e
  require (stateExists = false) "The contract has already been initialized"
  require (usage < two64) "not a u64"
  pure { accounts := .empty, totalSupply := 0, accountStorageUsage := usage }

/-- storage_impl.rs `storage_balance_bounds().min`; w-near/src/legacy_storage.rs:5-7
`storage_minimum_balance`. -/
def minBalance (s : State) : Nat := storageByteCost * s.accountStorageUsage

/-- core_impl.rs `ft_balance_of`. -/
def balanceOf (s : State) (a : AccountId) : Nat := (s.accounts.get a).getD 0

/-- core_impl.rs `ft_total_supply`. -/
def totalSupply (s : State) : Nat := s.totalSupply

/-- storage_impl.rs `storage_balance_of`: total and available. -/
def storageBalanceOf (s : State) (a : AccountId) : Option (Nat × Nat) :=
  if s.accounts.contains a = true then some (minBalance s, 0) else none

/-- core_impl.rs `internal_unwrap_balance_of`. -/
def unwrapBalance (s : State) (a : AccountId) : R Nat :=
  match s.accounts.get a with
  | some b => pure b
  | none => throw "The account is not registered"

/-- core_impl.rs `internal_deposit`. -/
def internalDeposit (s : State) (a : AccountId) (amount : Nat) : R State := do
  let b ← unwrapBalance s a
  let b' ← addU128 b amount
  let t ← addU128 s.totalSupply amount
  pure { s with accounts := s.accounts.insert a b', totalSupply := t }

/-- core_impl.rs `internal_withdraw`. -/
def internalWithdraw (s : State) (a : AccountId) (amount : Nat) : R State := do
  let b ← unwrapBalance s a
  let b' ← subU b amount
  let t ← subU s.totalSupply amount
  pure { s with accounts := s.accounts.insert a b', totalSupply := t }

/-- core_impl.rs `internal_transfer`. -/
def internalTransfer (s : State) (sender receiver : AccountId) (amount : Nat) : R State := do
  require (sender ≠ receiver) "Sender and receiver should be different"
  require (amount > 0) "The amount should be a positive number"
  let s ← internalWithdraw s sender amount
  internalDeposit s receiver amount

/-- core_impl.rs `internal_register_account`. -/
def internalRegister (s : State) (a : AccountId) : R State := do
  require (s.accounts.contains a = false) "The account is already registered"
  pure { s with accounts := s.accounts.insert a 0 }

/-- w-near/src/w_near.rs:18-27: registration if needed; the rest of the amount. -/
def depositRegister (s : State) (a : AccountId) (amount : Nat) : R (State × Nat) :=
  if s.accounts.contains a = true then pure (s, amount)
  else do
    require (amount ≥ minBalance s) "ERR_DEPOSIT_TOO_SMALL"
    let s ← internalRegister s a
    let amount ← subU amount (minBalance s)
    pure (s, amount)

/-- w-near/src/w_near.rs:13-29 `near_deposit`. -/
def nearDeposit (e : Env) (s : State) : R State := do
  require (e.attachedDeposit < two128) "not a u128"
  require (e.attachedDeposit > 0) "Requires positive attached deposit"
  let (s, amount) ← depositRegister s e.predecessor e.attachedDeposit
  internalDeposit s e.predecessor amount

/-- The host rejects a transfer of more than the balance. -/
def pay (e : Env) (a : AccountId) (amount : Nat) : R (List Eff) := do
  require (amount ≤ e.accountBalance) "Exceeded the account balance"
  pure [.transfer a amount]

/-- A payment if the amount is positive. -/
def payIfPos (e : Env) (a : AccountId) (amount : Nat) : R (List Eff) :=
  if amount > 0 then pay e a amount else pure []

/-- w-near/src/w_near.rs:38-46 `near_withdraw`. -/
def nearWithdraw (e : Env) (s : State) (amount : Nat) : R (State × List Eff) := do
  decodeU128 amount
  assertOneYocto e
  let s ← internalWithdraw s e.predecessor amount
  let total ← addU128 amount 1
  let effs ← pay e e.predecessor total
  pure (s, effs)

/-- core_impl.rs `ft_transfer`. -/
def ftTransfer (e : Env) (s : State) (receiver : AccountId) (amount : Nat) : R State := do
  decodeId e receiver
  decodeU128 amount
  assertOneYocto e
  internalTransfer s e.predecessor receiver amount

/-- core_impl.rs `ft_transfer_call`. -/
def ftTransferCall (e : Env) (s : State) (receiver : AccountId) (amount : Nat) : R (State × List Eff) := do
  decodeId e receiver
  decodeU128 amount
  assertOneYocto e
  let s ← internalTransfer s e.predecessor receiver amount
  require (e.hostOk = true) "Host error"
  pure (s, [.transferCall e.predecessor receiver amount])

/-- core_impl.rs `ft_resolve_transfer`: the part of the amount that the receiver did not use. -/
def unusedAmount (amount : Nat) : PResult → Nat
  | .failed => amount
  | .value none => amount
  | .value (some v) => min amount v

/-- core_impl.rs `internal_ft_resolve_transfer` after the unused amount is known; returns the used
amount and the burned amount. -/
def resolve (s : State) (sender receiver : AccountId) (amount unused : Nat) : R (State × Nat × Nat) :=
  if unused > 0 ∧ balanceOf s receiver > 0 then do
    let refund := min (balanceOf s receiver) unused
    let rb ← subU (balanceOf s receiver) refund
    let s1 : State := { s with accounts := s.accounts.insert receiver rb }
    match s1.accounts.get sender with
    | some sb => do
      let sb' ← addU128 sb refund
      let used ← subU amount refund
      pure ({ s1 with accounts := s1.accounts.insert sender sb' }, used, 0)
    | none => do
      let t ← subU s1.totalSupply refund
      pure ({ s1 with totalSupply := t }, amount, refund)
  else pure (s, amount, 0)

/-- core_impl.rs / `impl_fungible_token_core!`: the private callback `ft_resolve_transfer`; returns the
used amount. -/
def ftResolveTransfer (e : Env) (s : State) (sender receiver : AccountId) (amount : Nat) :
    R (State × Nat) := do
  notPayable e
  require (e.predecessor = e.self) "Method ft_resolve_transfer is private"
  match e.results with
  | r :: _ => do
    let (s, used, _) ← resolve s sender receiver amount (unusedAmount amount r)
    pure (s, used)
  | [] => throw "Invalid promise result index"

/-- storage_impl.rs `storage_deposit`; the argument `registration_only` is ignored by the code. -/
def storageDeposit (e : Env) (s : State) (account : Option AccountId) : R (State × List Eff) := do
  decodeOptId e account
  require (e.attachedDeposit < two128) "not a u128"
  if s.accounts.contains (account.getD e.predecessor) = true then do
    let effs ← payIfPos e e.predecessor e.attachedDeposit
    pure (s, effs)
  else do
    require (e.attachedDeposit ≥ minBalance s)
      "The attached deposit is less than the minimum storage balance"
    let s ← internalRegister s (account.getD e.predecessor)
    let refund ← subU e.attachedDeposit (minBalance s)
    let effs ← payIfPos e e.predecessor refund
    pure (s, effs)

/-- storage_impl.rs `storage_withdraw`: there is never anything to withdraw. -/
def storageWithdraw (e : Env) (s : State) (amount : Option Nat) : R State := do
  assertOneYocto e
  require (s.accounts.contains e.predecessor = true) "The account is not registered"
  require (amount.getD 0 = 0) "The amount is greater than the available storage balance"
  pure s

/-- storage_impl.rs `storage_unregister`, with the returned value. -/
def storageUnregister (e : Env) (s : State) (force : Option Bool) : R (State × List Eff × Bool) := do
  assertOneYocto e
  match s.accounts.get e.predecessor with
  | some b => do
    require (b = 0 ∨ force.getD false = true)
      "Can't unregister the account with the positive balance without force"
    let t ← subU s.totalSupply b
    let total ← addU128 (minBalance s) 1
    let effs ← pay e e.predecessor total
    pure ({ s with accounts := s.accounts.remove e.predecessor, totalSupply := t }, effs, true)
  | none => pure (s, [], false)

/-- The change methods that everybody can call. -/
inductive Call where
  | nearDeposit
  | nearWithdraw (amount : Nat)
  | ftTransfer (receiver : AccountId) (amount : Nat)
  | ftTransferCall (receiver : AccountId) (amount : Nat)
  | storageDeposit (account : Option AccountId)
  | storageWithdraw (amount : Option Nat)
  | storageUnregister (force : Option Bool)
  /-- the private callback, called directly -/
  | ftResolveTransfer (sender receiver : AccountId) (amount : Nat)
deriving DecidableEq, Repr

/-- A call. -/
def exec (e : Env) (s : State) : Call → R (State × List Eff)
  | .nearDeposit => do let s ← nearDeposit e s; pure (s, [])
  | .nearWithdraw x => nearWithdraw e s x
  | .ftTransfer r x => do let s ← ftTransfer e s r x; pure (s, [])
  | .ftTransferCall r x => ftTransferCall e s r x
  | .storageDeposit a => storageDeposit e s a
  | .storageWithdraw x => do let s ← storageWithdraw e s x; pure (s, [])
  | .storageUnregister f => do let (s, effs, _) ← storageUnregister e s f; pure (s, effs)
  | .ftResolveTransfer a b x => do let (s, _) ← ftResolveTransfer e s a b x; pure (s, [])

/-! ## The world -/

/-- Constants of the deployment. -/
structure Cfg where
  self : AccountId
  validAccountId : AccountId → Bool

/-- Receipts in flight. -/
inductive Receipt where
  | transfer (receiver : AccountId) (amount : Nat)
  /-- `ft_on_transfer` at the receiver -/
  | onTransfer (sender receiver : AccountId) (amount : Nat)
  | resolve (sender receiver : AccountId) (amount : Nat) (result : PResult)
deriving DecidableEq, Repr

/-- Global state; `bal` are the tokens of the contract, `paid` what has arrived at other accounts. -/
structure World where
  c : State
  bal : Nat
  receipts : List Receipt
  paid : AccountId → Nat

/-- Events. -/
inductive Ev where
  | call (who : AccountId) (attached : Nat) (hostOk : Bool) (c : Call)
  /-- the `i`-th receipt is executed: a transfer succeeds exactly if `res ≠ failed`; the receiver of
  `ft_on_transfer` answers `res`; a callback ignores `res` -/
  | deliver (i : Nat) (res : PResult)
  /-- tokens from elsewhere (transfers, gas rewards) -/
  | income (amount : Nat)
deriving DecidableEq, Repr

/-- Environment of a call. -/
def mkEnv (cfg : Cfg) (w : World) (who : AccountId) (att : Nat) (hostOk : Bool) (results : List PResult) :
    Env :=
  { self := cfg.self, predecessor := who, attachedDeposit := att, accountBalance := w.bal + att,
    results := results, validAccountId := cfg.validAccountId, hostOk := hostOk }

/-- The receipt of a promise. -/
def Eff.receipt : Eff → Receipt
  | .transfer r x => .transfer r x
  | .transferCall s r x => .onTransfer s r x

/-- Tokens that leave with a promise. -/
def Eff.out : Eff → Nat
  | .transfer _ x => x
  | .transferCall _ _ _ => 0

/-- The world after a successful call. -/
def applyCall (w : World) (att : Nat) (s : State) (effs : List Eff) : World :=
  { w with
    c := s
    bal := w.bal + att - (effs.map Eff.out).sum
    receipts := w.receipts ++ effs.map Eff.receipt }

/-- Executing a receipt that has been taken from the list. A failed transfer returns to the contract. -/
def execReceipt (cfg : Cfg) (w : World) (res : PResult) : Receipt → World
  | .transfer r x =>
    if res = .failed then { w with bal := w.bal + x }
    else { w with paid := fun a => if a = r then w.paid a + x else w.paid a }
  | .onTransfer s r x => { w with receipts := w.receipts ++ [.resolve s r x res] }
  | .resolve s r x result =>
    match ftResolveTransfer (mkEnv cfg w cfg.self 0 true [result]) w.c s r x with
    | .ok (c, _) => { w with c := c }
    | .error _ => w

/-- One event; the contract account makes no calls other than those of its contract. -/
def step (cfg : Cfg) (w : World) : Ev → World
  | .call who att hostOk c =>
    if who = cfg.self then w
    else
      match exec (mkEnv cfg w who att hostOk []) w.c c with
      | .ok (s, effs) => applyCall w att s effs
      | .error _ => w
  | .deliver i res =>
    match w.receipts[i]? with
    | some r => execReceipt cfg { w with receipts := w.receipts.eraseIdx i } res r
    | none => w
  | .income n => { w with bal := w.bal + n }

/-- A history. -/
def run (cfg : Cfg) (w : World) (evs : List Ev) : World := evs.foldl (step cfg) w

/-- Right after the initialization. -/
def Started (cfg : Cfg) (w0 : World) : Prop :=
  ∃ who usage s bal,
    new { self := cfg.self, predecessor := who, attachedDeposit := 0, accountBalance := bal, results := [],
          validAccountId := cfg.validAccountId, hostOk := true } false usage = .ok s ∧
    w0 = { c := s, bal := bal, receipts := [], paid := fun _ => 0 }

end Verif.WNear
