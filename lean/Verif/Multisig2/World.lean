import Verif.Multisig2.Model

/-!
# Histories of the multisig2 contract

Calls come from arbitrary predecessors with arbitrary signer keys: a transaction signed by an access
key of the account, a receipt that the contract sent to itself, or a call by another account.
-/

namespace Verif.Multisig2

open Verif

/-- Global state. -/
structure World where
  c : State
  now : Nat
  /-- history variable: the batches scheduled so far with the ids of their requests, newest first -/
  issued : List (Nat × Batch)

/-- Events. -/
inductive Ev where
  /-- a call by account `who`; the transaction was signed with `pk` -/
  | call (who : AccountId) (pk : PublicKey) (attached : Nat) (hostOk : Bool) (c : Call)
  | tick (dt : Nat)
deriving DecidableEq, Repr

/-- The environment of a call to the account `self`. -/
def mkEnv (self : AccountId) (w : World) (who : AccountId) (pk : PublicKey) (attached : Nat)
    (hostOk : Bool) : Env :=
  { self := self, predecessor := who, signerPk := pk, attachedDeposit := attached, now := w.now,
    hostOk := hostOk }

/-- The log after a call. -/
def logged (r : Res) (l : List (Nat × Batch)) : List (Nat × Batch) :=
  match r.batch with
  | some b => (r.id, b) :: l
  | none => l

/-- One event; a panicking call changes nothing. -/
def step (self : AccountId) (w : World) : Ev → World
  | .call who pk att host c =>
    match exec (mkEnv self w who pk att host) w.c c with
    | .ok r => { w with c := r.c, issued := logged r w.issued }
    | .error _ => w
  | .tick dt => { w with now := w.now + dt }

/-- A history. -/
def run (self : AccountId) (w : World) : List Ev → World
  | [] => w
  | ev :: t => run self (step self w ev) t

/-- The world right after `new`, called by anybody. -/
def Started (self : AccountId) (ms : List Member) (n : Nat) (w0 : World) : Prop :=
  ∃ c b now who pk, new ⟨self, who, pk, 0, now, true⟩ false ms n = .ok (c, b) ∧ w0 = ⟨c, now, []⟩

/-- `w` is reachable by some history. -/
def Reachable (self : AccountId) (ms : List Member) (n : Nat) (w : World) : Prop :=
  ∃ w0 evs, Started self ms n w0 ∧ w = run self w0 evs

theorem run_append (self : AccountId) (w : World) (l1 l2 : List Ev) :
    run self w (l1 ++ l2) = run self (run self w l1) l2 := by
  induction l1 generalizing w with
  | nil => rfl
  | cons h t ih => exact ih _

theorem run_snoc (self : AccountId) (w : World) (l : List Ev) (ev : Ev) :
    run self w (l ++ [ev]) = step self (run self w l) ev := by
  rw [run_append]; rfl

/-! ## Observations on a history -/

/-- Who acts: the account that calls, or the key that signed if the call comes from the contract's own
account. -/
def actor (self who : AccountId) (pk : PublicKey) : Member :=
  if self = who then .key pk else .account who

/-- In world `w`, the event is a successful confirmation of request `id` by `m`. -/
def Confirms (self : AccountId) (w : World) (ev : Ev) (m : Member) (id : Nat) : Prop :=
  ∃ who pk host r, actor self who pk = m ∧
    ((ev = .call who pk 0 host (.confirm id) ∧
      exec (mkEnv self w who pk 0 host) w.c (.confirm id) = .ok r) ∨
    (∃ q, ev = .call who pk 0 host (.addRequestAndConfirm q) ∧
      exec (mkEnv self w who pk 0 host) w.c (.addRequestAndConfirm q) = .ok r ∧ r.id = id))

/-- In world `w`, the event successfully adds the request `q` under the id `id`, made by `m`. -/
def Adds (self : AccountId) (w : World) (ev : Ev) (m : Member) (id : Nat) (q : Request) : Prop :=
  ∃ who pk host c r, actor self who pk = m ∧ ev = .call who pk 0 host c ∧
    (c = .addRequest q ∨ c = .addRequestAndConfirm q) ∧
    exec (mkEnv self w who pk 0 host) w.c c = .ok r ∧ r.id = id

/-- In world `w`, the event successfully deletes the request `id`. -/
def Deletes (self : AccountId) (w : World) (ev : Ev) (m : Member) (id : Nat) : Prop :=
  ∃ who pk host r, actor self who pk = m ∧ ev = .call who pk 0 host (.deleteRequest id) ∧
    exec (mkEnv self w who pk 0 host) w.c (.deleteRequest id) = .ok r

/-- Somewhere in the history `evs` from `w0` the property `P world event` holds. -/
def Sometime (self : AccountId) (w0 : World) (evs : List Ev) (P : World → Ev → Prop) : Prop :=
  ∃ l1 ev l2, evs = l1 ++ ev :: l2 ∧ P (run self w0 l1) ev

theorem Sometime.snoc {self : AccountId} {w0 : World} {evs : List Ev} {P : World → Ev → Prop}
    (h : Sometime self w0 evs P) (ev : Ev) : Sometime self w0 (evs ++ [ev]) P := by
  obtain ⟨l1, e, l2, rfl, hp⟩ := h
  exact ⟨l1, e, l2 ++ [ev], by simp, hp⟩

theorem Sometime.last {self : AccountId} {w0 : World} {evs : List Ev} {ev : Ev}
    {P : World → Ev → Prop} (h : P (run self w0 evs) ev) : Sometime self w0 (evs ++ [ev]) P :=
  ⟨evs, ev, [], rfl, h⟩

/-! ## What a request may contain and what it means (specification) -/

/-- The action is allowed for this receiver and number of actions in the state it meets. -/
def Allowed (self receiver : AccountId) (num : Nat) (s : State) : Action → Prop
  | .addMember _ | .addKey _ _ => receiver = self
  | .deleteMember _ => receiver = self ∧ s.numConfirmations + 1 ≤ s.members.len
  | .setNumConfirmations _ | .setActiveRequestsLimit _ => receiver = self ∧ num = 1
  | _ => True

/-- Effect of an action on the contract. -/
def applyAction (s : State) : Action → State
  | .addMember m => { s with members := s.members.insert m () }
  | .deleteMember m =>
    { s with book := s.book.purge Member.str m, members := s.members.remove m }
  | .setNumConfirmations n => { s with numConfirmations := n }
  | .setActiveRequestsLimit n => { s with limit := n }
  | _ => s

/-- Effect of several actions on the contract. -/
def applyActions (s : State) : List Action → State
  | [] => s
  | a :: t => applyActions (applyAction s a) t

/-- The actions are allowed one after the other. -/
def AllowedAll (self receiver : AccountId) (num : Nat) : State → List Action → Prop
  | _, [] => True
  | s, a :: t => Allowed self receiver num s a ∧ AllowedAll self receiver num (applyAction s a) t

/-- The request can be executed in state `s`. -/
def Executable (self : AccountId) (s : State) (q : Request) : Prop :=
  AllowedAll self q.receiver q.actions.length s q.actions

/-- The runtime action that an action of a request stands for; configuration actions and account
members have none. -/
def Action.toP (self : AccountId) : Action → Option PAction
  | .transfer a => some (.transfer a)
  | .createAccount => some .createAccount
  | .deployContract c => some (.deployContract c)
  | .addMember (.key k) => some (.addAccessKey k 0 self multisigMethodNames)
  | .addMember (.account _) => none
  | .deleteMember (.key k) => some (.deleteKey k)
  | .deleteMember (.account _) => none
  | .addKey k (some p) => some (.addAccessKey k (p.allowance.getD 0) p.receiver
      (String.intercalate "," p.methods))
  | .addKey k none => some (.addFullAccessKey k)
  | .functionCall m a d g => some (.functionCall m a d g)
  | .setNumConfirmations _ => none
  | .setActiveRequestsLimit _ => none

/-- The batch that a request stands for. -/
def Request.toBatch (self : AccountId) (q : Request) : Batch :=
  ⟨q.receiver, q.actions.filterMap (Action.toP self)⟩

end Verif.Multisig2
