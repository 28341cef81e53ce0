import Verif.Common.Basic
import Verif.Common.Book
import Verif.Common.Perm

/-!
# Model of the multisig2 contract (multisig2/src/lib.rs, near-sdk 4.0.0-pre.4)

Every method is a total function into `R`; promises are returned as batches of actions. The sets of
confirmations (`HashSet<String>`) are lists without duplicates. Validation of account ids and public
keys while decoding JSON is not modelled (all strings are accepted).
-/

namespace Verif.Multisig2

open Verif

/-- Byte strings. -/
abbrev Bytes := List UInt8

/-- multisig2/src/lib.rs:97-100 `MultisigMember`. -/
inductive Member where
  | key (k : PublicKey)
  | account (a : AccountId)
deriving DecidableEq, Repr

/-- multisig2/src/lib.rs:102-106 `to_string`: the JSON text of a member (untagged enum). Account ids and
the text of public keys contain no characters that JSON escapes. -/
def Member.str : Member → String
  | .key k => "{\"public_key\":\"" ++ k ++ "\"}"
  | .account a => "{\"account_id\":\"" ++ a ++ "\"}"

/-- multisig2/src/lib.rs:31-35 `FunctionCallPermission`. -/
structure FnPermission where
  allowance : Option Nat
  receiver : AccountId
  methods : List String
deriving DecidableEq, Repr

/-- multisig2/src/lib.rs:41-73 `MultiSigRequestAction`. -/
inductive Action where
  | transfer (amount : Nat)
  | createAccount
  | deployContract (code : Bytes)
  | addMember (m : Member)
  | deleteMember (m : Member)
  | addKey (key : PublicKey) (perm : Option FnPermission)
  | functionCall (method : String) (args : Bytes) (deposit gas : Nat)
  | setNumConfirmations (n : Nat)
  | setActiveRequestsLimit (n : Nat)
deriving DecidableEq, Repr

/-- multisig2/src/lib.rs:79-82 `MultiSigRequest`. -/
structure Request where
  receiver : AccountId
  actions : List Action
deriving DecidableEq, Repr

/-- JSON decoding of the integer fields (`U128`, `U64`, `u32`). -/
def Action.inRange : Action → Bool
  | .transfer a => a < two128
  | .addKey _ (some p) => (p.allowance.getD 0) < two128
  | .functionCall _ _ d g => d < two128 && g < two64
  | .setNumConfirmations n => n < two32
  | .setActiveRequestsLimit n => n < two32
  | _ => true

/-- multisig2/src/lib.rs:118-133 `MultiSigContract`; `book` holds `request_nonce`, `requests`,
`confirmations` and `num_requests_pk` (keyed by the text of the member). -/
structure State where
  members : UMap Member Unit
  numConfirmations : Nat
  book : Book Member String Request
  limit : Nat

/-- Actions of a batch promise (host interface behind `near_sdk::Promise`). -/
inductive PAction where
  | transfer (amount : Nat)
  | createAccount
  | deployContract (code : Bytes)
  /-- `methods` is the comma separated list the host stores -/
  | addAccessKey (key : PublicKey) (allowance : Nat) (receiver : AccountId) (methods : String)
  | addFullAccessKey (key : PublicKey)
  | deleteKey (key : PublicKey)
  | functionCall (method : String) (args : Bytes) (deposit gas : Nat)
deriving DecidableEq, Repr

/-- A batch promise. -/
structure Batch where
  receiver : AccountId
  actions : List PAction
deriving DecidableEq, Repr

/-- What a call sees. `hostOk`: the host accepts the batch created by the call, if any (valid receiver
and keys, enough balance and prepaid gas); otherwise the call panics. -/
structure Env where
  self : AccountId
  predecessor : AccountId
  signerPk : PublicKey
  attachedDeposit : Nat
  now : Nat
  hostOk : Bool

/-- Methods without `#[payable]` reject deposits. -/
def notPayable (e : Env) : R Unit := require (e.attachedDeposit = 0) "Method doesn't accept deposit"

/-- multisig2/src/lib.rs:14 -/
def defaultAllowance : Nat := 0
/-- multisig2/src/lib.rs:17, nanoseconds -/
def requestCooldown : Nat := 900000000000
/-- multisig2/src/lib.rs:20 -/
def activeRequestsLimit : Nat := 12
/-- multisig2/src/lib.rs:23 -/
def multisigMethodNames : String := "add_request,delete_request,confirm,add_and_confirm_request"

/-- multisig2/src/lib.rs:344-352: the promise action for a new member. -/
def memberKeyAction (self : AccountId) : Member → List PAction
  | .key k => [.addAccessKey k defaultAllowance self multisigMethodNames]
  | .account _ => []

/-- multisig2/src/lib.rs:375-378: the promise action for a removed member. -/
def memberUnkeyAction : Member → List PAction
  | .key k => [.deleteKey k]
  | .account _ => []

/-- multisig2/src/lib.rs:342-353 `add_member`. -/
def addMember (self : AccountId) (s : State) (acc : List PAction) (m : Member) :
    State × List PAction :=
  ({ s with members := s.members.insert m () }, acc ++ memberKeyAction self m)

/-- multisig2/src/lib.rs:356-379 `delete_member`. -/
def deleteMember (s : State) (acc : List PAction) (m : Member) : R (State × List PAction) := do
  let l ← subU s.members.len 1
  require (l ≥ s.numConfirmations)
    "Removing given member will make total number of members below number of confirmations"
  pure ({ s with book := s.book.purge Member.str m, members := s.members.remove m },
    acc ++ memberUnkeyAction m)

/-- multisig2/src/lib.rs:163-165: the loop of `new`. -/
def addMembers (self : AccountId) : State → List PAction → List Member → State × List PAction
  | s, acc, [] => (s, acc)
  | s, acc, m :: t =>
    let (s', acc') := addMember self s acc m
    addMembers self s' acc' t

/-- multisig2/src/lib.rs:148-167 `new`, with the batch that it sends to the account itself. `#[init]`
rejects deposits and initialized contracts. -/
def new (e : Env) (stateExists : Bool) (members : List Member) (numConfirmations : Nat) :
    R (State × Batch) := do
  notPayable e
  require (numConfirmations < two32) "Failed to deserialize input from JSON"
  require (stateExists = false) "The contract has already been initialized"
  require (members.length ≥ numConfirmations)
    "Members list must be equal or larger than number of confirmations"
  let (s, acts) := addMembers e.self
    { members := .empty, numConfirmations := numConfirmations
      book := { nonce := 0, requests := .empty, confs := .empty, counts := .empty }
      limit := activeRequestsLimit } [] members
  require (e.hostOk = true) "Host error"
  pure (s, ⟨e.self, acts⟩)

/-- multisig2/src/lib.rs:322-339 `current_member`. -/
def currentMember (e : Env) (s : State) : Option Member :=
  let m := if e.self = e.predecessor then Member.key e.signerPk else Member.account e.predecessor
  if s.members.contains m = true then some m else none

/-- multisig2/src/lib.rs:170-200 `add_request` (without the deposit check of the public method). -/
def addRequest (e : Env) (s : State) (request : Request) : R (State × Nat) := do
  require (request.actions.all Action.inRange = true) "Failed to deserialize input from JSON"
  match currentMember e s with
  | none => throw "Predecessor must be a member or transaction signed with key of given account"
  | some m => do
    let num ← addU32 ((s.book.counts.get m.str).getD 0) 1
    require (num ≤ s.limit) "Account has too many active requests. Confirm or delete some."
    let _ ← addU32 s.book.nonce 1
    pure ({ s with book := s.book.add Member.str ⟨request, m, e.now⟩ }, s.book.nonce)

/-- multisig2/src/lib.rs:407-423 `assert_valid_request`, returning the member, request and
confirmations it finds. -/
def assertValidRequest (e : Env) (s : State) (id : Nat) :
    R (Member × Stored Member Request × List String) := do
  match currentMember e s with
  | none => throw "Caller (predecessor or signer) is not a member of this multisig"
  | some m =>
    match s.book.requests.get id with
    | none => throw "No such request: either wrong number or already confirmed"
    | some st =>
      match s.book.confs.get id with
      | none => throw "Internal error: confirmations mismatch requests"
      | some cs => pure (m, st, cs)

/-- multisig2/src/lib.rs:210-222 `delete_request`. -/
def deleteRequest (e : Env) (s : State) (id : Nat) : R State := do
  let (_, st, _) ← assertValidRequest e s id
  let t ← addU64 st.added requestCooldown
  require (t < e.now) "Request cannot be deleted immediately after creation."
  pure { s with book := s.book.remove Member.str id st }

/-- multisig2/src/lib.rs:426-431 `assert_self_request`. -/
def assertSelfRequest (e : Env) (receiver : AccountId) : R Unit :=
  require (receiver = e.self)
    "This method only works when receiver_id is equal to current_account_id"

/-- multisig2/src/lib.rs:434-437 `assert_one_action_only`. -/
def assertOneActionOnly (e : Env) (receiver : AccountId) (num : Nat) : R Unit := do
  assertSelfRequest e receiver
  require (num = 1) "This method should be a separate request"

/-- multisig2/src/lib.rs:248-261: the promise action for a new key. -/
def keyAction (key : PublicKey) : Option FnPermission → PAction
  | some p => .addAccessKey key (p.allowance.getD defaultAllowance) p.receiver
      (String.intercalate "," p.methods)
  | none => .addFullAccessKey key

/-- multisig2/src/lib.rs:228-288: the loop of `execute_request`. `acc` are the actions of the promise so
far. The two `set` actions return at once; the promise (without actions then) is dropped, which
schedules it. -/
def runActions (e : Env) (receiver : AccountId) (num : Nat) :
    State → List PAction → List Action → R (State × List PAction)
  | s, acc, [] => pure (s, acc)
  | s, acc, .transfer a :: t => runActions e receiver num s (acc ++ [.transfer a]) t
  | s, acc, .createAccount :: t => runActions e receiver num s (acc ++ [.createAccount]) t
  | s, acc, .deployContract c :: t => runActions e receiver num s (acc ++ [.deployContract c]) t
  | s, acc, .addMember m :: t => do
    assertSelfRequest e receiver
    let (s', acc') := addMember e.self s acc m
    runActions e receiver num s' acc' t
  | s, acc, .deleteMember m :: t => do
    assertSelfRequest e receiver
    let (s', acc') ← deleteMember s acc m
    runActions e receiver num s' acc' t
  | s, acc, .addKey k p :: t => do
    assertSelfRequest e receiver
    runActions e receiver num s (acc ++ [keyAction k p]) t
  | s, acc, .functionCall m a d g :: t =>
    runActions e receiver num s (acc ++ [.functionCall m a d g]) t
  | s, acc, .setNumConfirmations n :: _ => do
    assertOneActionOnly e receiver num
    pure ({ s with numConfirmations := n }, acc)
  | s, acc, .setActiveRequestsLimit n :: _ => do
    assertOneActionOnly e receiver num
    pure ({ s with limit := n }, acc)

/-- multisig2/src/lib.rs:224-290 `execute_request`. -/
def executeRequest (e : Env) (s : State) (request : Request) : R (State × Batch) := do
  let (s', actions) ← runActions e request.receiver request.actions.length s [] request.actions
  require (e.hostOk = true) "Host error"
  pure (s', ⟨request.receiver, actions⟩)

/-- multisig2/src/lib.rs:294-315 `confirm`: the new state and the batch of the request if it was
executed. `HashSet::len` is a `usize`, cast to `u32`. -/
def confirm (e : Env) (s : State) (id : Nat) : R (State × Option Batch) := do
  let (m, st, cs) ← assertValidRequest e s id
  require (m.str ∉ cs) "Already confirmed this request with this key"
  let num ← addU32 (cs.length % two32) 1
  if num ≥ s.numConfirmations then do
    let (s', b) ← executeRequest e { s with book := s.book.remove Member.str id st } st.request
    pure (s', some b)
  else
    pure ({ s with book := s.book.confirm id cs m.str }, none)

/-- Public methods that change the state. -/
inductive Call where
  | addRequest (r : Request)
  | addRequestAndConfirm (r : Request)
  | deleteRequest (id : Nat)
  | confirm (id : Nat)
deriving DecidableEq, Repr

/-- The exported name of the method. -/
def Call.method : Call → String
  | .addRequest _ => "add_request"
  | .addRequestAndConfirm _ => "add_request_and_confirm"
  | .deleteRequest _ => "delete_request"
  | .confirm _ => "confirm"

/-- Result of a call. -/
structure Res where
  c : State
  /-- the request id that is concerned (returned by the two adding methods) -/
  id : Nat
  /-- the batch that was scheduled -/
  batch : Option Batch

/-- Dispatch. `add_request_and_confirm`: multisig2/src/lib.rs:203-207 (the result of `confirm` is
dropped, which schedules its promise). -/
def exec (e : Env) (s : State) : Call → R Res
  | .addRequest r => do
    notPayable e
    let (s', id) ← addRequest e s r
    pure ⟨s', id, none⟩
  | .addRequestAndConfirm r => do
    notPayable e
    let (s1, id) ← addRequest e s r
    let (s2, b) ← confirm e s1 id
    pure ⟨s2, id, b⟩
  | .deleteRequest id => do
    notPayable e
    let s' ← deleteRequest e s id
    pure ⟨s', id, none⟩
  | .confirm id => do
    notPayable e
    let (s', b) ← confirm e s id
    pure ⟨s', id, b⟩

/-! ## Views -/

/-- multisig2/src/lib.rs:444-446 `get_members`. -/
def getMembers (s : State) : List Member := s.members.keys

/-- multisig2/src/lib.rs:448-454 `get_request`. -/
def getRequest (s : State) (id : Nat) : R Request :=
  match s.book.requests.get id with
  | some st => pure st.request
  | none => throw "No such request"

/-- multisig2/src/lib.rs:456-458 `get_num_requests_per_member`. -/
def getNumRequestsPerMember (s : State) (m : Member) : Nat := (s.book.counts.get m.str).getD 0

/-- multisig2/src/lib.rs:460-462 `list_request_ids`. -/
def listRequestIds (s : State) : List Nat := s.book.requests.keys

/-- multisig2/src/lib.rs:464-470 `get_confirmations` (in some order). -/
def getConfirmations (s : State) (id : Nat) : R (List String) :=
  match s.book.confs.get id with
  | some cs => pure cs
  | none => throw "No such request"

/-- multisig2/src/lib.rs:472-474 `get_num_confirmations`. -/
def getNumConfirmations (s : State) : Nat := s.numConfirmations

/-- multisig2/src/lib.rs:476-478 `get_request_nonce`. -/
def getRequestNonce (s : State) : Nat := s.book.nonce

end Verif.Multisig2
