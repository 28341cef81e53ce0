import Verif.Lockup.World
import Verif.StakingPool.World
import Verif.Whitelist.Model
import Verif.Voting.World

/-!
# The whole system: one lockup, real staking pools, the whitelist and the transfers poll

In `Verif.Lockup.World` the contracts called by the lockup answer arbitrarily (event `execute i r`).
Here they are the models of the contracts in /repo: a receipt of the lockup to a staking pool runs
the method of the staking pool model on the state of that pool, a query of the whitelist reads the
state of the whitelist model, a query of the poll reads the state of the voting model. Everybody else
keeps using these contracts in between.

Which method a receipt runs: lockup/src/lib.rs:35-64 (`ext_staking_pool`,
`ext_whitelist`, `ext_transfer_poll`); the views are called with `env::current_account_id()`
(lockup/src/owner.rs:195, 278, lockup/src/foundation.rs:83, 109).

The epochs of pools and poll advance independently (more histories than in reality). Accounts that
are not deployed pools, other whitelists and other polls answer arbitrarily. A receipt may fail at any
receiver for reasons outside of the contracts (gas): `hostOk = false`.
-/

namespace Verif.System

open Verif

/-- Constants of the deployment. -/
structure Cfg where
  /-- account of the lockup contract -/
  lockup : AccountId
  validAccountId : AccountId → Bool
  validPublicKey : PublicKey → Bool
  sha256 : Lockup.Bytes → Lockup.Bytes
  /-- account of the whitelist contract -/
  whitelist : AccountId
  /-- account of the voting contract -/
  poll : AccountId
  /-- the validators of each epoch -/
  voting : Voting.Cfg

/-- The pool contract on account `p`. -/
def Cfg.pool (cfg : Cfg) (p : AccountId) : StakingPool.Cfg :=
  ⟨p, cfg.validAccountId, cfg.validPublicKey⟩

/-- The lockup contract. -/
def Cfg.lk (cfg : Cfg) : Lockup.Cfg := ⟨cfg.lockup, cfg.validAccountId, cfg.sha256, true⟩

/-- Global state. The fields `held` and `loss` of `lk` are not used. -/
structure Sys where
  lk : Lockup.World
  /-- the deployed staking pools -/
  pools : UMap AccountId StakingPool.World
  wl : Whitelist.State
  poll : Voting.World

/-- Events. -/
inductive Ev where
  /-- account `who` calls the lockup -/
  | call (who : AccountId) (attached : Nat) (c : Lockup.Call)
  /-- the `i`-th receipt of the lockup is executed at its receiver; `r` is the answer of receivers
  that are none of the modelled contracts -/
  | execute (i : Nat) (hostOk : Bool) (r : Lockup.PResult)
  /-- the callback of the `i`-th receipt of the lockup runs -/
  | callback (i : Nat)
  /-- `x` tokens on their way to the lockup arrive -/
  | arrive (x : Nat)
  /-- other tokens arrive at the lockup -/
  | income (x : Nat)
  /-- something happens at the staking pool `p` -/
  | pool (p : AccountId) (ev : StakingPool.Ev)
  /-- a staking pool is deployed on account `p` -/
  | create (p deployer owner : AccountId) (key : PublicKey) (fee : StakingPool.Fee)
      (balance epoch : Nat)
  /-- somebody calls the whitelist -/
  | whitelist (ev : Whitelist.Ev)
  /-- somebody calls the poll -/
  | vote (who : AccountId) (attached : Nat) (c : Voting.Call)
  /-- epochs pass at the poll -/
  | voteEpochs (k : Nat)
  /-- time passes -/
  | tick (dt : Nat)

/-- The method of the staking pool contract that a receipt of the lockup runs, with its deposit:
lockup/src/lib.rs:35-54 `ext_staking_pool`. -/
def callOf : Lockup.Ext → Option (AccountId × Nat × StakingPool.Call)
  | .poolDeposit p a => some (p, a, .deposit)
  | .poolDepositAndStake p a => some (p, a, .depositAndStake)
  | .poolWithdraw p a => some (p, 0, .withdraw a)
  | .poolStake p a => some (p, 0, .stake a)
  | .poolUnstake p a => some (p, 0, .unstake a)
  | .poolUnstakeAll p => some (p, 0, .unstakeAll)
  | _ => none

/-- The view of the staking pool contract that a receipt of the lockup reads:
lockup/src/lib.rs:35-54 `ext_staking_pool`. -/
def viewOf : Lockup.Ext → Option (AccountId × (Nat → StakingPool.Pool → AccountId → R Nat))
  | .poolStakedBalance p => some (p, StakingPool.getAccountStakedBalance)
  | .poolUnstakedBalance p => some (p, StakingPool.getAccountUnstakedBalance)
  | .poolTotalBalance p => some (p, StakingPool.getAccountTotalBalance)
  | _ => none

/-- A receipt answered with `r` by something else than a modelled pool. -/
def answered (cfg : Cfg) (s : Sys) (p : Lockup.Pending) (r : Lockup.PResult) :
    Lockup.PResult × Sys :=
  let x := Lockup.runExt cfg.lk s.lk p r
  (x.1, { s with lk := x.2 })

/-- A method of the pool `w` on account `p` called by the lockup. -/
def callPool (cfg : Cfg) (s : Sys) (p : AccountId) (w : StakingPool.World) (att : Nat)
    (c : StakingPool.Call) : Lockup.PResult × Sys :=
  match StakingPool.exec (StakingPool.mkEnv (cfg.pool p) w cfg.lockup att []) w.pool c with
  | .ok (q, effs) =>
    (.unit, { s with
      pools := s.pools.insert p (StakingPool.commit w cfg.lockup att c q effs)
      lk := { s.lk with incoming := s.lk.incoming + StakingPool.paidTo cfg.lockup effs } })
  | .error _ => (.failed, { s with lk := { s.lk with incoming := s.lk.incoming + att } })

/-- A view of the pool `w` read by the lockup. -/
def viewPool (cfg : Cfg) (w : StakingPool.World)
    (view : Nat → StakingPool.Pool → AccountId → R Nat) : Lockup.PResult :=
  match view w.epoch w.pool cfg.lockup with
  | .ok v => .balance v
  | .error _ => .failed

/-- The answer of the whitelist contract. -/
def askWhitelist (cfg : Cfg) (s : Sys) (pool : AccountId) : Lockup.PResult :=
  match Whitelist.isWhitelisted (Whitelist.mkEnv cfg.validAccountId cfg.lockup 0) s.wl pool with
  | .ok b => .bool b
  | .error _ => .failed

/-- Execution of a receipt of the lockup at its receiver: result and new state (without touching the
list of receipts). -/
def runExt (cfg : Cfg) (s : Sys) (p : Lockup.Pending) (hostOk : Bool) (r : Lockup.PResult) :
    Lockup.PResult × Sys :=
  if hostOk = false then answered cfg s p .failed
  else
    match callOf p.ext with
    | some (pool, att, c) =>
      match s.pools.get pool with
      | some w => callPool cfg s pool w att c
      | none => answered cfg s p r
    | none =>
      match viewOf p.ext with
      | some (pool, view) =>
        match s.pools.get pool with
        | some w => (viewPool cfg w view, s)
        | none => answered cfg s p r
      | none =>
        match p.ext with
        | .isWhitelisted wl pool =>
          answered cfg s p (if wl = cfg.whitelist then askWhitelist cfg s pool else r)
        | .getResult poll =>
          answered cfg s p (if poll = cfg.poll then .poll (Voting.getResult s.poll.c) else r)
        | _ => answered cfg s p r

/-- Execute the `i`-th receipt of the lockup. -/
def execute (cfg : Cfg) (s : Sys) (i : Nat) (hostOk : Bool) (r : Lockup.PResult) : Sys :=
  match s.lk.pend[i]? with
  | some ⟨ext, cb, .sent⟩ =>
    let (r', s') := runExt cfg s ⟨ext, cb, .sent⟩ hostOk r
    match cb with
    | none => { s' with lk := { s'.lk with pend := s.lk.pend.eraseIdx i } }
    | some cb => { s' with lk := { s'.lk with pend := s.lk.pend.set i ⟨ext, some cb, .done r'⟩ } }
  | _ => s

/-- Deploy a staking pool with more than the guarantee fund on its account. -/
def create (cfg : Cfg) (s : Sys) (p deployer owner : AccountId) (key : PublicKey)
    (fee : StakingPool.Fee) (balance epoch : Nat) : Sys :=
  if p = cfg.lockup ∨ s.pools.contains p = true then s
  else if StakingPool.guaranteeFund < balance ∧ balance < two128 then
    match StakingPool.new (StakingPool.initEnv (cfg.pool p) deployer balance epoch) false owner key
        fee with
    | .ok (q, effs) =>
      { s with pools := s.pools.insert p (StakingPool.initWorld q effs balance epoch) }
    | .error _ => s
  else s

/-- One event. The lockup calls pools only by receipts (event `execute`). -/
def step (cfg : Cfg) (s : Sys) : Ev → Sys
  | .call who att c => { s with lk := Lockup.step cfg.lk s.lk (.call who att c) }
  | .execute i hostOk r => execute cfg s i hostOk r
  | .callback i => { s with lk := Lockup.step cfg.lk s.lk (.callback i) }
  | .arrive x => { s with lk := Lockup.step cfg.lk s.lk (.arrive x) }
  | .income x => { s with lk := Lockup.step cfg.lk s.lk (.income x) }
  | .pool p ev =>
    match s.pools.get p, ev with
    | none, _ => s
    | some w, .call who att c =>
      if who = cfg.lockup then s
      else { s with pools := s.pools.insert p (StakingPool.step (cfg.pool p) w (.call who att c)) }
    | some w, ev => { s with pools := s.pools.insert p (StakingPool.step (cfg.pool p) w ev) }
  | .create p deployer owner key fee balance epoch =>
    create cfg s p deployer owner key fee balance epoch
  | .whitelist ev => { s with wl := Whitelist.step cfg.validAccountId s.wl ev }
  | .vote who att c => { s with poll := Voting.step cfg.voting s.poll (.call who att c) }
  | .voteEpochs k => { s with poll := Voting.step cfg.voting s.poll (.epochs k) }
  | .tick dt =>
    { s with
      lk := Lockup.step cfg.lk s.lk (.tick dt)
      poll := Voting.step cfg.voting s.poll (.tick dt) }

/-- A history. -/
def run (cfg : Cfg) (s : Sys) : List Ev → Sys
  | [] => s
  | ev :: t => run cfg (step cfg s ev) t

/-- The account is listed by the whitelist contract. -/
def Listed (s : Sys) (p : AccountId) : Prop := s.wl.whitelist.contains p = true

/-- The assumption about the foundation and the factories: an accepted call only puts an account on the
whitelist that runs the staking pool contract (the factory of /repo does so: C100). -/
def Careful (cfg : Cfg) (s : Sys) : List Ev → Prop
  | [] => True
  | ev :: t =>
    (∀ who att p r, ev = .whitelist ⟨who, att, .addPool p⟩ →
      Whitelist.exec (Whitelist.mkEnv cfg.validAccountId who att) s.wl (.addPool p) = .ok r →
      s.pools.contains p = true) ∧
    Careful cfg (step cfg s ev) t

/-- `s0` is the moment after a successful `new` of the lockup with arguments `a`, naming the modelled
whitelist; pools, whitelist and poll may be in use already, but the whitelist only lists pools. -/
structure Started (cfg : Cfg) (a : Lockup.NewArgs) (s0 : Sys) : Prop where
  lk : Lockup.Started cfg.lk a s0.lk
  whitelist : a.whitelist = cfg.whitelist
  pools : ∀ p w, s0.pools.get p = some w →
    p ≠ cfg.lockup ∧ StakingPool.Reachable (cfg.pool p) w
  listed : ∀ p, Listed s0 p → s0.pools.contains p = true
  poll : Voting.Reachable cfg.voting s0.poll
  now : s0.poll.now = s0.lk.now

/-- `s` is reachable by some history in which only pools are put on the whitelist. -/
def Reachable (cfg : Cfg) (a : Lockup.NewArgs) (s : Sys) : Prop :=
  ∃ s0 evs, Started cfg a s0 ∧ Careful cfg s0 evs ∧ s = run cfg s0 evs

end Verif.System
