import Verif.System.Model
import Verif.Multisig2.Keys

/-!
# A multisig wallet that takes part in the system

One account runs the multisig2 contract and acts in the system of `Verif.System`: it owns the lockup,
or a staking pool, or is the foundation of the lockup or of the whitelist, or simply uses these
contracts. The wallet acts in two ways. A batch that the contract sends to another account when a
request is executed (multisig2/src/lib.rs:224-290 `execute_request`) is delivered later, in any order,
and all of its actions take effect or none. And a transaction to another account can be signed with an
access key of the wallet, as far as the permission of the key goes.

Not modelled: the tokens of the wallet (a deposit that it cannot pay makes the call fail in which the
batch is created: `hostOk` of `Multisig2`), batches to accounts outside of the system (no effect on the
system), and what the failure of a batch tells the caller. Clocks of wallet and system advance
independently (more histories than in reality).
-/

namespace Verif.Wallet

open Verif
open Verif.System (Sys)
open Verif.Multisig2 (KWorld KCfg KEv PAction Batch Bytes)

/-- Fixed surroundings: the system, the wallet, and how the contracts of the system understand method
names and arguments (`near_bindgen` dispatch and JSON decoding). -/
structure WCfg where
  sys : System.Cfg
  ms : KCfg
  lockupCall : String → Bytes → Option Lockup.Call
  poolCall : String → Bytes → Option StakingPool.Call
  whitelistCall : String → Bytes → Option Whitelist.Call
  pollCall : String → Bytes → Option Voting.Call

/-- The account of the wallet. -/
def WCfg.wallet (cfg : WCfg) : AccountId := cfg.ms.self

/-- Global state. -/
structure WWorld where
  ms : KWorld
  sys : Sys
  /-- batches of the wallet to other accounts that are under way, with the ids of their requests -/
  out : List (Nat × Batch)

/-- Events. -/
inductive WEv where
  /-- something happens at the wallet -/
  | ms (ev : KEv)
  /-- something happens in the system without the wallet -/
  | sys (ev : System.Ev)
  /-- the `i`-th batch of the wallet arrives at its receiver -/
  | deliver (i : Nat) (hostOk : Bool)
  /-- a transaction of the wallet to another account, signed with `pk` -/
  | direct (pk : PublicKey) (receiver : AccountId) (acts : List PAction)

/-- The event is a call made by the wallet. -/
def byWallet (cfg : WCfg) : System.Ev → Bool
  | .call who _ _ => who = cfg.wallet
  | .pool _ (.call who _ _) => who = cfg.wallet
  | .whitelist ev => ev.who = cfg.wallet
  | .vote who _ _ => who = cfg.wallet
  | _ => false

/-- The call in the system that a function call of the wallet at `receiver` is. Accounts that are
neither the lockup, the whitelist nor the poll are taken for staking pools. -/
def order (cfg : WCfg) (receiver : AccountId) (method : String) (args : Bytes) (deposit : Nat) :
    Option System.Ev :=
  if receiver = cfg.sys.lockup then
    (cfg.lockupCall method args).map (System.Ev.call cfg.wallet deposit)
  else if receiver = cfg.sys.whitelist then
    (cfg.whitelistCall method args).map (fun c => .whitelist ⟨cfg.wallet, deposit, c⟩)
  else if receiver = cfg.sys.poll then
    (cfg.pollCall method args).map (System.Ev.vote cfg.wallet deposit)
  else (cfg.poolCall method args).map (fun c => .pool receiver (.call cfg.wallet deposit c))

/-- The called contract accepts the call (it does not panic). -/
def accepted (cfg : System.Cfg) (s : Sys) : System.Ev → Bool
  | .call who att c =>
    who ≠ cfg.lockup &&
    match Lockup.exec (Lockup.mkEnv cfg.lk s.lk who att none) s.lk.c c with
    | .ok (_, eff) => Lockup.effAttached eff ≤ s.lk.bal + att
    | .error _ => false
  | .pool p (.call who att c) =>
    match s.pools.get p with
    | some w =>
      who ≠ cfg.lockup && who ≠ p &&
        (StakingPool.exec (StakingPool.mkEnv (cfg.pool p) w who att []) w.pool c).isOk
    | none => false
  | .whitelist ev => (Whitelist.exec (Whitelist.mkEnv cfg.validAccountId ev.who ev.attached) s.wl ev.call).isOk
  | .vote who att c => (Voting.exec (Voting.mkEnv cfg.voting s.poll who att) s.poll.c c).isOk
  | _ => false

/-- Tokens sent to `receiver` arrive. -/
def payment (cfg : WCfg) (s : Sys) (receiver : AccountId) (x : Nat) : List System.Ev :=
  if receiver = cfg.sys.lockup then [.income x]
  else if s.pools.contains receiver = true then [.pool receiver (.income x)]
  else []

/-- What the actions of a receipt of the wallet do at `receiver`; `none`: an action fails, so that the
receipt has no effect. The wallet can neither create accounts that exist, deploy code on other accounts
nor change their keys. -/
def batchEvs (cfg : WCfg) (receiver : AccountId) : Sys → List PAction → Option (List System.Ev)
  | _, [] => some []
  | s, .transfer x :: t =>
    (batchEvs cfg receiver (System.run cfg.sys s (payment cfg s receiver x)) t).map
      (payment cfg s receiver x ++ ·)
  | s, .functionCall m a d _ :: t =>
    match order cfg receiver m a d with
    | none => none
    | some ev =>
      if accepted cfg.sys s ev = true then
        (batchEvs cfg receiver (System.step cfg.sys s ev) t).map (ev :: ·)
      else none
  | _, _ :: _ => none

/-- What an event does in the system. -/
def effects (cfg : WCfg) (w : WWorld) : WEv → List System.Ev
  | .ms _ => []
  | .sys ev => if byWallet cfg ev = true then [] else [ev]
  | .deliver i hostOk =>
    match w.out[i]? with
    | some x =>
      if hostOk = true then (batchEvs cfg x.2.receiver w.sys x.2.actions).getD [] else []
    | none => []
  | .direct pk receiver acts =>
    match w.ms.keys.get pk with
    | some p =>
      if receiver ≠ cfg.wallet ∧ Multisig2.permAllows receiver p acts = true then
        (batchEvs cfg receiver w.sys acts).getD []
      else []
    | none => []

/-- The batches for other accounts among those scheduled since the list of scheduled batches was `old`,
oldest first. -/
def newOut (self : AccountId) (old new : List (Nat × Batch)) : List (Nat × Batch) :=
  (new.take (new.length - old.length)).reverse.filter (fun x => x.2.receiver ≠ self)

/-- One event. -/
def wstep (cfg : WCfg) (w : WWorld) (ev : WEv) : WWorld :=
  { ms := match ev with
      | .ms e => Multisig2.kstep cfg.ms w.ms e
      | _ => w.ms
    sys := System.run cfg.sys w.sys (effects cfg w ev)
    out := match ev with
      | .ms e => w.out ++ newOut cfg.wallet w.ms.w.issued (Multisig2.kstep cfg.ms w.ms e).w.issued
      | .deliver i _ => w.out.eraseIdx i
      | _ => w.out }

/-- A history. -/
def wrun (cfg : WCfg) (w : WWorld) : List WEv → WWorld
  | [] => w
  | ev :: t => wrun cfg (wstep cfg w ev) t

/-- Everything that happens in the system during a history, oldest first. -/
def trace (cfg : WCfg) (w : WWorld) : List WEv → List System.Ev
  | [] => []
  | ev :: t => effects cfg w ev ++ trace cfg (wstep cfg w ev) t

/-- The events at the wallet during a history. -/
def msEvs : List WEv → List KEv
  | [] => []
  | .ms ev :: t => ev :: msEvs t
  | _ :: t => msEvs t

/-! ## Specification -/

/-- The calls in the system that a request asks for. -/
def ordersOf (cfg : WCfg) (q : Multisig2.Request) : List System.Ev :=
  q.actions.filterMap (fun a => match a with
    | .functionCall m args d _ => order cfg q.receiver m args d
    | _ => none)

/-- In the history `log` of the wallet from `w0`, a member added `q` as request number `id`; since then
it was confirmed by at least as many distinct members (at that time) as the wallet demanded when the
request was executed. -/
def Approved (self : AccountId) (w0 : Multisig2.World) (log : List Multisig2.Ev) (id : Nat)
    (q : Multisig2.Request) : Prop :=
  ∃ l1 ev l2 a1 e1 a2 m, log = l1 ++ ev :: l2 ∧ l1 ++ [ev] = a1 ++ e1 :: a2 ∧
    Multisig2.Adds self (Multisig2.run self w0 a1) e1 m id q ∧
    m ∈ Multisig2.getMembers (Multisig2.run self w0 a1).c ∧
    ∃ conf : List Multisig2.Member, conf.Nodup ∧
      Multisig2.getNumConfirmations (Multisig2.run self w0 l1).c ≤ conf.length ∧
      ∀ m ∈ conf, Multisig2.Sometime self (Multisig2.run self w0 a1) (e1 :: a2)
        (fun w e => Multisig2.Confirms self w e m id ∧ m ∈ Multisig2.getMembers w.c)

/-- The keys given out by the wallet are for calls of the wallet itself only: initially, and by executed
requests. -/
structure OwnKeys (cfg : WCfg) (keys0 : UMap PublicKey Perm) (issued : List (Nat × Batch)) : Prop where
  initial : ∀ k p, keys0.get k = some p → ∃ names, p = .fn cfg.wallet names
  full : ∀ id b k, (id, b) ∈ issued → .addFullAccessKey k ∉ b.actions
  access : ∀ id b k al r names, (id, b) ∈ issued → .addAccessKey k al r names ∈ b.actions →
    r = cfg.wallet

/-- As `System.Careful`: only accounts that run the staking pool contract are put on the whitelist, by
the wallet or by others. -/
def WCareful (cfg : WCfg) (w : WWorld) (evs : List WEv) : Prop :=
  System.Careful cfg.sys w.sys (trace cfg w evs)

/-- Each action is a call that its contract accepts, one after the other. -/
def Welcome (cfg : WCfg) (receiver : AccountId) : Sys → List Multisig2.Action → Prop
  | _, [] => True
  | s, a :: t => ∃ m args d g ev, a = .functionCall m args d g ∧ order cfg receiver m args d = some ev ∧
      accepted cfg.sys s ev = true ∧ Welcome cfg receiver (System.step cfg.sys s ev) t

/-- The event `ev` brings the call `c` of the member `m` to the wallet: an account calls it, or a key of
the wallet that permits it signs the call. -/
def Speaks (cfg : KCfg) (keys : UMap PublicKey Perm) (m : Multisig2.Member) (c : Multisig2.Call)
    (ev : KEv) : Prop :=
  (∃ a pk, m = .account a ∧ a ≠ cfg.self ∧ ev = .foreign a pk 0 true c) ∨
  ∃ k p name args g, m = .key k ∧ keys.get k = some p ∧ p.permits cfg.self name = true ∧
    cfg.decode name args = some c ∧ ev = .sign k [.functionCall name args 0 g] [true]

end Verif.Wallet
