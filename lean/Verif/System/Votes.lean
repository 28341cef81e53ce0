import Verif.System.Model

/-!
# The system with the votes of the staking pools

The validators that vote in the poll are the staking pools: the owner of a pool calls `vote` of the
pool, the pool calls `vote` of the poll in its own name. In `Verif.System` anybody may be the caller
of the poll; here the call of a pool is a receipt that only an order of the owner creates
(staking-pool/src/lib.rs:452-460), delivered later, in any order, or lost (`hostOk = false`: gas).

An account that runs the staking pool contract has no access keys (as in `StakingPool.step`), so it
calls the poll in no other way. No deposit is attached to the receipt, and it has no callback.
-/

namespace Verif.System

open Verif

/-- A call of `vote` on its way: the pool, the receiver, the vote. -/
structure VoteReceipt where
  pool : AccountId
  receiver : AccountId
  isVote : Bool
deriving DecidableEq, Repr

/-- Global state. -/
structure VSys where
  sys : Sys
  votes : List VoteReceipt

/-- Events. -/
inductive VEv where
  | sys (ev : Ev)
  /-- the `i`-th vote of a pool is executed at its receiver -/
  | deliver (i : Nat) (hostOk : Bool)

/-- The votes among the promises of a call of the pool `p`: staking-pool/src/lib.rs:459. -/
def votesOf (p : AccountId) (effs : List StakingPool.Eff) : List VoteReceipt :=
  effs.filterMap (fun e => match e with
    | .voteCall receiver isVote => some ⟨p, receiver, isVote⟩
    | _ => none)

/-- The votes sent by an event: staking-pool/src/lib.rs:452-460 `vote` is the only method of a pool
that sends one (C71), and the lockup never calls it. -/
def sentVotes (cfg : Cfg) (s : Sys) : Ev → List VoteReceipt
  | .pool p (.call who att c) =>
    match s.pools.get p with
    | some w =>
      if who = p ∨ who = cfg.lockup then []
      else
        match StakingPool.exec (StakingPool.mkEnv (cfg.pool p) w who att []) w.pool c with
        | .ok (_, effs) => votesOf p effs
        | .error _ => []
    | none => []
  | _ => []

/-- A vote arrives: voting/src/lib.rs:78-103 `vote`, called by the pool without a deposit, if the
receiver is the poll of the system. Other receivers are not modelled. -/
def arriveVote (cfg : Cfg) (s : Sys) (v : VoteReceipt) : Sys :=
  if v.receiver = cfg.poll then step cfg s (.vote v.pool 0 (.vote v.isVote)) else s

/-- The event `ev` is a call of the poll by a staking pool. -/
def byPool (s : Sys) : Ev → Bool
  | .vote who _ _ => s.pools.contains who
  | _ => false

/-- One event. A staking pool calls the poll only by its receipts. -/
def vstep (cfg : Cfg) (v : VSys) : VEv → VSys
  | .sys ev =>
    if byPool v.sys ev = true then v
    else { sys := step cfg v.sys ev, votes := v.votes ++ sentVotes cfg v.sys ev }
  | .deliver i hostOk =>
    match v.votes[i]? with
    | some r =>
      { sys := if hostOk = true then arriveVote cfg v.sys r else v.sys
        votes := v.votes.eraseIdx i }
    | none => v

/-- A history. -/
def vrun (cfg : Cfg) (v : VSys) : List VEv → VSys
  | [] => v
  | ev :: t => vrun cfg (vstep cfg v ev) t

/-- As `Careful`: only accounts that run the staking pool contract are put on the whitelist. -/
def VCareful (cfg : Cfg) (v : VSys) : List VEv → Prop
  | [] => True
  | ev :: t =>
    (∀ who att p r, ev = .sys (.whitelist ⟨who, att, .addPool p⟩) →
      Whitelist.exec (Whitelist.mkEnv cfg.validAccountId who att) v.sys.wl (.addPool p) = .ok r →
      v.sys.pools.contains p = true) ∧
    VCareful cfg (vstep cfg v ev) t

end Verif.System
