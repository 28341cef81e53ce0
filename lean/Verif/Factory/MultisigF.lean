import Verif.Factory.Runtime
import Verif.Multisig2.World

/-!
# Model of the multisig factory (multisig-factory/src/lib.rs, near-sdk 2.0.0)

The factory has one method and no state. It creates an account, deploys the code of multisig2, transfers
the attached deposit and calls `new`, in one batch, without a callback.
-/

namespace Verif.MultisigFactory

open Verif Verif.Factory

/-- multisig-factory/src/lib.rs:13 `CREATE_CALL_GAS`. -/
def createCallGas : Nat := 50000000000000

/-- What a call sees. -/
structure Env where
  self : AccountId
  predecessor : AccountId
  attachedDeposit : Nat
  prepaidGas : Nat
  /-- whether the host accepts an account id as receiver of a promise -/
  validAccountId : AccountId → Bool
  /-- whether the host has no objection of its own (gas) -/
  hostOk : Bool

/-- The batch of multisig-factory/src/lib.rs:36-47. -/
structure Batch where
  receiver : AccountId
  code : Code
  deposit : Nat
  members : List Multisig2.Member
  numConfirmations : Nat
  gas : Nat
deriving DecidableEq, Repr

/-- multisig-factory/src/lib.rs:28-49 `create`; `num_confirmations` is a `u64`. -/
def create (e : Env) (name : AccountId) (members : List Multisig2.Member) (numConfirmations : Nat) :
    R Batch := do
  require (numConfirmations < two64) "Failed to deserialize input from JSON."
  require (e.attachedDeposit < two128) "not a u128"
  require (e.validAccountId (subAccount name e.self) = true) "Invalid account ID"
  let gas ← subU e.prepaidGas createCallGas
  require (e.hostOk = true) "Host error"
  pure { receiver := subAccount name e.self, code := .multisig2, deposit := e.attachedDeposit,
         members := members, numConfirmations := numConfirmations, gas := gas }

/-! ## The world -/

/-- Constants of the deployment. -/
structure Cfg where
  self : AccountId
  validAccountId : AccountId → Bool
  /-- whether a member that the factory accepts and prints as JSON can be read by multisig2, which
  uses a later SDK (it checks account ids and keys) -/
  readable : Multisig2.Member → Bool
  /-- accounts that already exist when the factory is deployed -/
  existing : AccountId → Bool

/-- An account created by the factory. -/
structure Created where
  code : Code
  multisig : Multisig2.World
  /-- the batch that `new` sends to the account itself (the access keys) -/
  keys : Multisig2.Batch
  deposit : Nat
  caller : AccountId

/-- A creation in flight, with the caller and the key that signed the transaction. -/
structure Receipt where
  batch : Batch
  caller : AccountId
  pk : PublicKey
deriving DecidableEq, Repr

/-- Global state. `bal` are the tokens of the factory, `wallet` those of the other accounts that call
it. -/
structure World where
  bal : Nat
  now : Nat
  wallet : AccountId → Nat
  accounts : UMap AccountId Created
  receipts : List Receipt

/-- Events. -/
inductive Ev where
  | create (who : AccountId) (pk : PublicKey) (attached gas : Nat) (hostOk : Bool) (name : AccountId)
      (members : List Multisig2.Member) (numConfirmations : Nat)
  /-- the `i`-th receipt is executed; `ok = false`: the runtime fails it for a reason of its own -/
  | deliver (i : Nat) (ok : Bool)
  /-- tokens for the factory, and tokens for another account -/
  | income (amount : Nat)
  | earn (who : AccountId) (amount : Nat)
  | tick (dt : Nat)

/-- The environment of a call. -/
def mkEnv (cfg : Cfg) (who : AccountId) (att gas : Nat) (hostOk : Bool) : Env :=
  { self := cfg.self, predecessor := who, attachedDeposit := att, prepaidGas := gas,
    validAccountId := cfg.validAccountId, hostOk := hostOk }

/-- Adding tokens to an account. -/
def credit (f : AccountId → Nat) (a : AccountId) (n : Nat) : AccountId → Nat :=
  fun x => if x = a then f x + n else f x

/-- Taking tokens from an account. -/
def debit (f : AccountId → Nat) (a : AccountId) (n : Nat) : AccountId → Nat :=
  fun x => if x = a then f x - n else f x

/-- The runtime executes the batch: it is all or nothing. -/
def deploy (cfg : Cfg) (w : World) (r : Receipt) : Option Created :=
  if directSub cfg.self r.batch.receiver = true ∧ cfg.existing r.batch.receiver = false ∧
      w.accounts.contains r.batch.receiver = false ∧ r.batch.members.all cfg.readable = true then
    match Multisig2.new ⟨r.batch.receiver, cfg.self, r.pk, 0, w.now, true⟩ false r.batch.members
        r.batch.numConfirmations with
    | .ok (c, b) => some ⟨r.batch.code, ⟨c, w.now, []⟩, b, r.batch.deposit, r.caller⟩
    | .error _ => none
  else none

/-- Executing a receipt that has been taken from the list. The deposit of a failed batch goes back to
its predecessor, the factory. -/
def execReceipt (cfg : Cfg) (w : World) (ok : Bool) (r : Receipt) : World :=
  match (if ok then deploy cfg w r else none) with
  | some acc => { w with accounts := w.accounts.insert r.batch.receiver acc }
  | none => { w with bal := w.bal + r.batch.deposit }

/-- One event. A caller cannot attach more than they have; a panicking call returns the deposit. -/
def step (cfg : Cfg) (w : World) : Ev → World
  | .create who pk att gas hostOk name members n =>
    if att ≤ w.wallet who ∧ who ≠ cfg.self then
      match create (mkEnv cfg who att gas hostOk) name members n with
      | .ok b =>
        { w with
          wallet := debit w.wallet who att
          bal := w.bal + att - b.deposit
          receipts := w.receipts ++ [⟨b, who, pk⟩] }
      | .error _ => w
    else w
  | .deliver i ok =>
    match w.receipts[i]? with
    | some r => execReceipt cfg { w with receipts := w.receipts.eraseIdx i } ok r
    | none => w
  | .income n => { w with bal := w.bal + n }
  | .earn who n => if who = cfg.self then w else { w with wallet := credit w.wallet who n }
  | .tick dt => { w with now := w.now + dt }

/-- A history. -/
def run (cfg : Cfg) (w : World) (evs : List Ev) : World := evs.foldl (step cfg) w

/-- A factory that has not created anything yet (it needs no initialization). -/
def Started (w0 : World) : Prop :=
  ∃ bal now wallet, w0 = { bal := bal, now := now, wallet := wallet, accounts := .empty, receipts := [] }

/-- Tokens from outside for the factory. -/
def income : List Ev → Nat
  | [] => 0
  | .income n :: t => n + income t
  | _ :: t => income t

/-- Tokens from outside for an account. -/
def earned (cfg : Cfg) (a : AccountId) : List Ev → Nat
  | [] => 0
  | .earn who n :: t => (if who = a ∧ a ≠ cfg.self then n else 0) + earned cfg a t
  | _ :: t => earned cfg a t

end Verif.MultisigFactory
