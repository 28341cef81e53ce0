import Verif.Multisig.Model

/-!
# Histories of the multisig contract

Calls come from arbitrary predecessors with arbitrary signer keys: a transaction signed by an access
key of the account, or a receipt that the contract sent to itself (then the signer key is the one of
the transaction at the origin). Which keys exist on the account is modelled in `Multisig.Keys`.
-/

namespace Verif.Multisig

open Verif

/-- Global state. -/
structure World where
  c : State
  now : Nat
  /-- history variable: the batches scheduled so far with the ids of their requests, newest first -/
  issued : List (Nat × Batch)

/-- Events. -/
inductive Ev where
  /-- a call by account `who`; the transaction was signed with `pk` -/
  | call (who : AccountId) (pk : PublicKey) (attached : Nat) (hostOk : Bool) (c : Call)
  | tick (dt : Nat)
deriving DecidableEq, Repr

/-- The environment of a call to the account `self`. -/
def mkEnv (self : AccountId) (w : World) (who : AccountId) (pk : PublicKey) (attached : Nat)
    (hostOk : Bool) : Env :=
  { self := self, predecessor := who, signerPk := pk, attachedDeposit := attached, now := w.now,
    hostOk := hostOk }

/-- The log after a call. -/
def logged (r : Res) (l : List (Nat × Batch)) : List (Nat × Batch) :=
  match r.batch with
  | some b => (r.id, b) :: l
  | none => l

/-- One event; a panicking call changes nothing. -/
def step (self : AccountId) (w : World) : Ev → World
  | .call who pk att host c =>
    match exec (mkEnv self w who pk att host) w.c c with
    | .ok r => { w with c := r.c, issued := logged r w.issued }
    | .error _ => w
  | .tick dt => { w with now := w.now + dt }

/-- A history. -/
def run (self : AccountId) (w : World) : List Ev → World
  | [] => w
  | ev :: t => run self (step self w ev) t

/-- The world right after `new`. -/
def Started (n : Nat) (w0 : World) : Prop :=
  ∃ c now, new 0 false n = .ok c ∧ w0 = ⟨c, now, []⟩

/-- `w` is reachable by some history. -/
def Reachable (self : AccountId) (n : Nat) (w : World) : Prop :=
  ∃ w0 evs, Started n w0 ∧ w = run self w0 evs

theorem run_append (self : AccountId) (w : World) (l1 l2 : List Ev) :
    run self w (l1 ++ l2) = run self (run self w l1) l2 := by
  induction l1 generalizing w with
  | nil => rfl
  | cons h t ih => exact ih _

theorem run_snoc (self : AccountId) (w : World) (l : List Ev) (ev : Ev) :
    run self w (l ++ [ev]) = step self (run self w l) ev := by
  rw [run_append]; rfl

/-! ## Observations on a history -/

/-- In world `w`, the event is a successful confirmation of request `id` with key `k`, made by the
account itself. -/
def Confirms (self : AccountId) (w : World) (ev : Ev) (k : PublicKey) (id : Nat) : Prop :=
  ∃ host r, (ev = .call self k 0 host (.confirm id) ∧
      exec (mkEnv self w self k 0 host) w.c (.confirm id) = .ok r) ∨
    (∃ q, ev = .call self k 0 host (.addRequestAndConfirm q) ∧
      exec (mkEnv self w self k 0 host) w.c (.addRequestAndConfirm q) = .ok r ∧ r.id = id)

/-- In world `w`, the event successfully adds the request `q` under the id `id` with key `k`. -/
def Adds (self : AccountId) (w : World) (ev : Ev) (k : PublicKey) (id : Nat) (q : Request) : Prop :=
  ∃ host c r, ev = .call self k 0 host c ∧ (c = .addRequest q ∨ c = .addRequestAndConfirm q) ∧
    exec (mkEnv self w self k 0 host) w.c c = .ok r ∧ r.id = id

/-- In world `w`, the event successfully deletes the request `id`. -/
def Deletes (self : AccountId) (w : World) (ev : Ev) (id : Nat) : Prop :=
  ∃ k host r, ev = .call self k 0 host (.deleteRequest id) ∧
    exec (mkEnv self w self k 0 host) w.c (.deleteRequest id) = .ok r

/-- Somewhere in the history `evs` from `w0` the property `P world event` holds. -/
def Sometime (self : AccountId) (w0 : World) (evs : List Ev) (P : World → Ev → Prop) : Prop :=
  ∃ l1 ev l2, evs = l1 ++ ev :: l2 ∧ P (run self w0 l1) ev

theorem Sometime.snoc {self : AccountId} {w0 : World} {evs : List Ev} {P : World → Ev → Prop}
    (h : Sometime self w0 evs P) (ev : Ev) : Sometime self w0 (evs ++ [ev]) P := by
  obtain ⟨l1, e, l2, rfl, hp⟩ := h
  exact ⟨l1, e, l2 ++ [ev], by simp, hp⟩

theorem Sometime.last {self : AccountId} {w0 : World} {evs : List Ev} {ev : Ev}
    {P : World → Ev → Prop} (h : P (run self w0 evs) ev) : Sometime self w0 (evs ++ [ev]) P :=
  ⟨evs, ev, [], rfl, h⟩

/-! ## What a request may contain and what it means (specification) -/

/-- The action is allowed for this receiver and number of actions. -/
def Allowed (self receiver : AccountId) (num : Nat) : Action → Prop
  | .addKey _ _ | .deleteKey _ => receiver = self
  | .setNumConfirmations _ | .setActiveRequestsLimit _ => receiver = self ∧ num = 1
  | _ => True

/-- The request can be executed. -/
def Executable (self : AccountId) (q : Request) : Prop :=
  ∀ a ∈ q.actions, Allowed self q.receiver q.actions.length a

/-- The runtime action that an action of a request stands for; configuration actions have none. -/
def Action.toP : Action → Option PAction
  | .transfer a => some (.transfer a)
  | .createAccount => some .createAccount
  | .deployContract c => some (.deployContract c)
  | .addKey k (some p) => some (.addAccessKey k (p.allowance.getD 0) p.receiver
      (String.intercalate "," p.methods))
  | .addKey k none => some (.addFullAccessKey k)
  | .deleteKey k => some (.deleteKey k)
  | .functionCall m a d g => some (.functionCall m a d g)
  | .setNumConfirmations _ => none
  | .setActiveRequestsLimit _ => none

/-- The batch that a request stands for. -/
def Request.toBatch (q : Request) : Batch := ⟨q.receiver, q.actions.filterMap Action.toP⟩

end Verif.Multisig
