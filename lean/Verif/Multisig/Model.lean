import Verif.Common.Basic
import Verif.Common.Book

/-!
# Model of the multisig contract (multisig/src/lib.rs, near-sdk 2.0.0)

Every method is a total function into `R`; promises are returned as batches of actions. The set of
confirmations (`HashSet<PublicKey>`) is a list without duplicates.
-/

namespace Verif.Multisig

open Verif

/-- Byte strings. -/
abbrev Bytes := List UInt8

/-- multisig/src/lib.rs:21-25 `FunctionCallPermission`. -/
structure FnPermission where
  allowance : Option Nat
  receiver : AccountId
  methods : List String
deriving DecidableEq, Repr

/-- multisig/src/lib.rs:30-60 `MultiSigRequestAction`. -/
inductive Action where
  | transfer (amount : Nat)
  | createAccount
  | deployContract (code : Bytes)
  | addKey (key : PublicKey) (perm : Option FnPermission)
  | deleteKey (key : PublicKey)
  | functionCall (method : String) (args : Bytes) (deposit gas : Nat)
  | setNumConfirmations (n : Nat)
  | setActiveRequestsLimit (n : Nat)
deriving DecidableEq, Repr

/-- multisig/src/lib.rs:65-68 `MultiSigRequest`. -/
structure Request where
  receiver : AccountId
  actions : List Action
deriving DecidableEq, Repr

/-- JSON decoding of the integer fields (`U128`, `U64`, `u32`). -/
def Action.inRange : Action → Bool
  | .transfer a => a < two128
  | .addKey _ (some p) => (p.allowance.getD 0) < two128
  | .functionCall _ _ d g => d < two128 && g < two64
  | .setNumConfirmations n => n < two32
  | .setActiveRequestsLimit n => n < two32
  | _ => true

/-- multisig/src/lib.rs:81-89 `MultiSigContract`; `book` holds `request_nonce`, `requests`,
`confirmations` and `num_requests_pk`. -/
structure State where
  numConfirmations : Nat
  book : Book PublicKey PublicKey Request
  limit : Nat

/-- Actions of a batch promise (host interface behind `near_sdk::Promise`). -/
inductive PAction where
  | transfer (amount : Nat)
  | createAccount
  | deployContract (code : Bytes)
  /-- `methods` is the comma separated list the host stores -/
  | addAccessKey (key : PublicKey) (allowance : Nat) (receiver : AccountId) (methods : String)
  | addFullAccessKey (key : PublicKey)
  | deleteKey (key : PublicKey)
  | functionCall (method : String) (args : Bytes) (deposit gas : Nat)
deriving DecidableEq, Repr

/-- A batch promise. -/
structure Batch where
  receiver : AccountId
  actions : List PAction
deriving DecidableEq, Repr

/-- What a call sees. `hostOk`: the host accepts the batch created by the call, if any (valid receiver
and keys, enough balance and prepaid gas); otherwise the call panics. -/
structure Env where
  self : AccountId
  predecessor : AccountId
  signerPk : PublicKey
  attachedDeposit : Nat
  now : Nat
  hostOk : Bool

/-- Methods without `#[payable]` reject deposits (near-sdk 2.0.0). -/
def notPayable (e : Env) : R Unit := require (e.attachedDeposit = 0) "Method doesn't accept deposit"

/-- multisig/src/lib.rs:11 -/
def defaultAllowance : Nat := 0
/-- multisig/src/lib.rs:14, nanoseconds -/
def requestCooldown : Nat := 900000000000

/-- multisig/src/lib.rs:103-113 `new` (`#[init]` without `#[payable]` rejects deposits). -/
def new (attached : Nat) (stateExists : Bool) (numConfirmations : Nat) : R State := do
  require (attached = 0) "Method doesn't accept deposit"
  require (numConfirmations < two32) "Failed to deserialize input from JSON"
  require (stateExists = false) "Already initialized"
  pure { numConfirmations := numConfirmations
         book := { nonce := 0, requests := .empty, confs := .empty, counts := .empty }
         limit := 12 }

/-- multisig/src/lib.rs:116-146 `add_request` (without the deposit check of the public method). -/
def addRequest (e : Env) (s : State) (request : Request) : R (State × Nat) := do
  require (request.actions.all Action.inRange = true) "Failed to deserialize input from JSON"
  require (e.self = e.predecessor) "Predecessor account must much current account"
  let num ← addU32 ((s.book.counts.get e.signerPk).getD 0) 1
  require (num ≤ s.limit) "Account has too many active requests. Confirm or delete some."
  let _ ← addU32 s.book.nonce 1
  pure ({ s with book := s.book.add (fun k => k) ⟨request, e.signerPk, e.now⟩ }, s.book.nonce)

/-- multisig/src/lib.rs:293-310 `assert_valid_request`, returning the request and confirmations it
finds. -/
def assertValidRequest (e : Env) (s : State) (id : Nat) :
    R (Stored PublicKey Request × List PublicKey) := do
  require (e.self = e.predecessor) "Predecessor account must much current account"
  match s.book.requests.get id with
  | none => throw "No such request: either wrong number or already confirmed"
  | some st =>
    match s.book.confs.get id with
    | none => throw "Internal error: confirmations mismatch requests"
    | some cs => pure (st, cs)

/-- multisig/src/lib.rs:156-165 `delete_request`. -/
def deleteRequest (e : Env) (s : State) (id : Nat) : R State := do
  let (st, _) ← assertValidRequest e s id
  let t ← addU64 st.added requestCooldown
  require (t < e.now) "Request cannot be deleted immediately after creation."
  pure { s with book := s.book.remove (fun k => k) id st }

/-- multisig/src/lib.rs:312-318 `assert_self_request`. -/
def assertSelfRequest (e : Env) (receiver : AccountId) : R Unit :=
  require (receiver = e.self)
    "This method only works when receiver_id is equal to current_account_id"

/-- multisig/src/lib.rs:320-323 `assert_one_action_only`. -/
def assertOneActionOnly (e : Env) (receiver : AccountId) (num : Nat) : R Unit := do
  assertSelfRequest e receiver
  require (num = 1) "This method should be a separate request"

/-- multisig/src/lib.rs:183-196: the promise action for a new key. -/
def keyAction (key : PublicKey) : Option FnPermission → PAction
  | some p => .addAccessKey key (p.allowance.getD defaultAllowance) p.receiver
      (String.intercalate "," p.methods)
  | none => .addFullAccessKey key

/-- multisig/src/lib.rs:171-242: the loop of `execute_request`. `acc` are the actions of the promise
so far. The two `set` actions return at once; the promise (without actions then) is dropped, which
schedules it. -/
def runActions (e : Env) (receiver : AccountId) (num : Nat) :
    State → List PAction → List Action → R (State × List PAction)
  | s, acc, [] => pure (s, acc)
  | s, acc, .transfer a :: t => runActions e receiver num s (acc ++ [.transfer a]) t
  | s, acc, .createAccount :: t => runActions e receiver num s (acc ++ [.createAccount]) t
  | s, acc, .deployContract c :: t => runActions e receiver num s (acc ++ [.deployContract c]) t
  | s, acc, .addKey k p :: t => do
    assertSelfRequest e receiver
    runActions e receiver num s (acc ++ [keyAction k p]) t
  | s, acc, .deleteKey k :: t => do
    assertSelfRequest e receiver
    runActions e receiver num { s with book := s.book.purge (fun k => k) k } (acc ++ [.deleteKey k]) t
  | s, acc, .functionCall m a d g :: t =>
    runActions e receiver num s (acc ++ [.functionCall m a d g]) t
  | s, acc, .setNumConfirmations n :: _ => do
    assertOneActionOnly e receiver num
    pure ({ s with numConfirmations := n }, acc)
  | s, acc, .setActiveRequestsLimit n :: _ => do
    assertOneActionOnly e receiver num
    pure ({ s with limit := n }, acc)

/-- multisig/src/lib.rs:167-244 `execute_request`. -/
def executeRequest (e : Env) (s : State) (request : Request) : R (State × Batch) := do
  let (s', actions) ← runActions e request.receiver request.actions.length s [] request.actions
  require (e.hostOk = true) "Host error"
  pure (s', ⟨request.receiver, actions⟩)

/-- multisig/src/lib.rs:248-266 `confirm`: the new state and the batch of the request if it was
executed. `HashSet::len` is a `usize`, cast to `u32`. -/
def confirm (e : Env) (s : State) (id : Nat) : R (State × Option Batch) := do
  let (st, cs) ← assertValidRequest e s id
  require (e.signerPk ∉ cs) "Already confirmed this request with this key"
  let num ← addU32 (cs.length % two32) 1
  if num ≥ s.numConfirmations then do
    let (s', b) ← executeRequest e { s with book := s.book.remove (fun k => k) id st } st.request
    pure (s', some b)
  else
    pure ({ s with book := s.book.confirm id cs e.signerPk }, none)

/-- Public methods that change the state. -/
inductive Call where
  | addRequest (r : Request)
  | addRequestAndConfirm (r : Request)
  | deleteRequest (id : Nat)
  | confirm (id : Nat)
deriving DecidableEq, Repr

/-- Result of a call. -/
structure Res where
  c : State
  /-- the request id that is concerned (returned by the two adding methods) -/
  id : Nat
  /-- the batch that was scheduled -/
  batch : Option Batch

/-- Dispatch. `add_request_and_confirm`: multisig/src/lib.rs:149-153 (the result of `confirm` is
dropped, which schedules its promise). -/
def exec (e : Env) (s : State) : Call → R Res
  | .addRequest r => do
    notPayable e
    let (s', id) ← addRequest e s r
    pure ⟨s', id, none⟩
  | .addRequestAndConfirm r => do
    notPayable e
    let (s1, id) ← addRequest e s r
    let (s2, b) ← confirm e s1 id
    pure ⟨s2, id, b⟩
  | .deleteRequest id => do
    notPayable e
    let s' ← deleteRequest e s id
    pure ⟨s', id, none⟩
  | .confirm id => do
    notPayable e
    let (s', b) ← confirm e s id
    pure ⟨s', id, b⟩

/-! ## Views -/

/-- multisig/src/lib.rs:327-329 `get_request`. -/
def getRequest (s : State) (id : Nat) : R Request :=
  match s.book.requests.get id with
  | some st => pure st.request
  | none => throw "No such request"

/-- multisig/src/lib.rs:331-333 `get_num_requests_pk`. -/
def getNumRequestsPk (s : State) (k : PublicKey) : Nat := (s.book.counts.get k).getD 0

/-- multisig/src/lib.rs:335-337 `list_request_ids`. -/
def listRequestIds (s : State) : List Nat := s.book.requests.keys

/-- multisig/src/lib.rs:339-346 `get_confirmations` (in some order). -/
def getConfirmations (s : State) (id : Nat) : R (List PublicKey) :=
  match s.book.confs.get id with
  | some cs => pure cs
  | none => throw "No such request"

/-- multisig/src/lib.rs:348-350 `get_num_confirmations`. -/
def getNumConfirmations (s : State) : Nat := s.numConfirmations

/-- multisig/src/lib.rs:352-354 `get_request_nonce`. -/
def getRequestNonce (s : State) : Nat := s.book.nonce

end Verif.Multisig
