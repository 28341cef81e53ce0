import Verif.StakingPool.Model

/-!
# The staking pool account inside the runtime

`World` = contract state + tokens of the account + receipts in flight + history variables. `Ev` is
one scheduler/runtime/user event; a history is a `List Ev`, so every interleaving is covered.

Runtime facts modelled here (not in /repo, see DESIGN.md): a panicking call changes nothing; the
attached deposit is on the account during the call; a transfer promise debits the account when it is
created; a stake action needs `amount <= liquid + locked`, moves tokens from liquid to locked, never
back (the runtime unlocks later by itself, event `unlock`); rewards increase the locked balance.
No slashing.
-/

namespace Verif.StakingPool

open Verif

/-- Constants of the deployment. -/
structure Cfg where
  self : AccountId
  validAccountId : AccountId → Bool
  validPublicKey : PublicKey → Bool

/-- Receipts that the pool sent to itself. -/
inductive Receipt where
  | stakeAction (amount : Nat) (key : PublicKey) (withCallback : Bool)
  | stakeCallback (succeeded : Bool)
deriving DecidableEq, Repr

/-- Global state. The last five fields are history variables: nothing reads them. -/
structure World where
  pool : Pool
  liquid : Nat
  locked : Nat
  epoch : Nat
  receipts : List Receipt
  /-- number of successful stake/unstake operations so far -/
  roundings : Nat
  /-- tokens deposited so far per account -/
  deposited : AccountId → Nat
  /-- tokens paid out so far per account -/
  withdrawn : AccountId → Nat
  /-- tokens deposited so far by all accounts together -/
  totalDeposited : Nat
  /-- tokens paid out so far to all accounts together -/
  totalWithdrawn : Nat

/-- Events. -/
inductive Ev where
  /-- account `who` calls a method with a deposit -/
  | call (who : AccountId) (attached : Nat) (c : Call)
  /-- the runtime executes the `i`-th outstanding receipt; `ok` is the runtime's verdict on a stake
  action (it may also reject for other reasons, e.g. below the minimum stake) -/
  | deliver (i : Nat) (ok : Bool)
  /-- validator reward -/
  | reward (amount : Nat)
  /-- the runtime returns locked tokens to the liquid balance -/
  | unlock (amount : Nat)
  /-- tokens arriving from outside: plain transfers, gas rebates, refunds of failed transfers -/
  | income (amount : Nat)
  /-- epochs pass -/
  | epochs (n : Nat)
deriving DecidableEq, Repr

/-- The environment seen by a call. -/
def mkEnv (cfg : Cfg) (w : World) (who : AccountId) (attached : Nat) (results : List Bool) : Env :=
  { currentAccountId := cfg.self, predecessor := who, attachedDeposit := attached,
    accountBalance := w.liquid + attached, accountLockedBalance := w.locked,
    epochHeight := w.epoch, promiseResults := results,
    validAccountId := cfg.validAccountId, validPublicKey := cfg.validPublicKey }

/-- Tokens leaving the account by the effects. -/
def paidOut (effs : List Eff) : Nat :=
  (effs.map (fun e => match e with | .transfer _ x => x | _ => 0)).sum

/-- Tokens sent to account `a` by the effects. -/
def paidTo (a : AccountId) (effs : List Eff) : Nat :=
  (effs.map (fun e => match e with | .transfer r x => if r = a then x else 0 | _ => 0)).sum

/-- Stake receipts created by the effects. -/
def newReceipts : List Eff → List Receipt
  | [] => []
  | .stake amt k cb :: t => .stakeAction amt k cb :: newReceipts t
  | _ :: t => newReceipts t

/-- Calls that convert between shares and tokens. -/
def Call.isRounding : Call → Bool
  | .depositAndStake | .stakeAll | .stake _ | .unstakeAll | .unstake _ => true
  | _ => false

/-- Commit a successful call. -/
def commit (w : World) (who : AccountId) (attached : Nat) (c : Call) (p : Pool) (effs : List Eff) :
    World :=
  { w with
    pool := p
    liquid := w.liquid + attached - paidOut effs
    receipts := w.receipts ++ newReceipts effs
    roundings := w.roundings + (if c.isRounding then 1 else 0)
    deposited := fun a => w.deposited a + (if a = who then attached else 0)
    withdrawn := fun a => w.withdrawn a + paidTo a effs
    totalDeposited := w.totalDeposited + attached
    totalWithdrawn := w.totalWithdrawn + paidOut effs }

/-- A call: on a panic nothing changes. -/
def doCall (cfg : Cfg) (w : World) (who : AccountId) (attached : Nat) (results : List Bool)
    (c : Call) : World :=
  match exec (mkEnv cfg w who attached results) w.pool c with
  | .ok (p, effs) => commit w who attached c p effs
  | .error _ => w

/-- Execution of a stake action by the runtime: returns the new balances when it succeeds. -/
def runStakeAction (w : World) (amount : Nat) (ok : Bool) : Option (Nat × Nat) :=
  if ok = true ∧ amount ≤ w.liquid + w.locked then
    if w.locked < amount then some (w.liquid - (amount - w.locked), amount)
    else some (w.liquid, w.locked)
  else none

/-- Execute one receipt. -/
def deliver (cfg : Cfg) (w : World) (i : Nat) (ok : Bool) : World :=
  match w.receipts[i]? with
  | none => w
  | some (.stakeAction amt _ cb) =>
    let rest := w.receipts.eraseIdx i
    match runStakeAction w amt ok with
    | some (liq, lck) =>
      { w with liquid := liq, locked := lck,
               receipts := rest ++ (if cb then [.stakeCallback true] else []) }
    | none => { w with receipts := rest ++ (if cb then [.stakeCallback false] else []) }
  | some (.stakeCallback r) =>
    doCall cfg { w with receipts := w.receipts.eraseIdx i } cfg.self 0 [r] .onStakeAction

/-- One event. Calls by the pool account itself happen only through `deliver` (it has no keys). -/
def step (cfg : Cfg) (w : World) : Ev → World
  | .call who attached c => if who = cfg.self then w else doCall cfg w who attached [] c
  | .deliver i ok => deliver cfg w i ok
  | .reward r => { w with locked := w.locked + r }
  | .unlock x =>
    if x ≤ w.locked then { w with locked := w.locked - x, liquid := w.liquid + x } else w
  | .income r => { w with liquid := w.liquid + r }
  | .epochs n => { w with epoch := w.epoch + n }

/-- A history. -/
def run (cfg : Cfg) (w : World) : List Ev → World
  | [] => w
  | ev :: t => run cfg (step cfg w ev) t

/-- The world right after a successful `new` on an account holding `balance` tokens. -/
def initWorld (p : Pool) (effs : List Eff) (balance epoch : Nat) : World :=
  { pool := p, liquid := balance, locked := 0, epoch := epoch, receipts := newReceipts effs,
    roundings := 0, deposited := fun _ => 0, withdrawn := fun _ => 0,
    totalDeposited := 0, totalWithdrawn := 0 }

/-- Environment of the initializing call. -/
def initEnv (cfg : Cfg) (deployer : AccountId) (balance epoch : Nat) : Env :=
  { currentAccountId := cfg.self, predecessor := deployer, attachedDeposit := 0,
    accountBalance := balance, accountLockedBalance := 0, epochHeight := epoch,
    promiseResults := [], validAccountId := cfg.validAccountId,
    validPublicKey := cfg.validPublicKey }

/-- `w0` is the world right after some successful initialization with more than the guarantee fund
on the account (balances are `u128`). (With exactly the fund the pool has no shares at all; the factory requires 30 NEAR,
staking-pool-factory/src/lib.rs:11.) -/
def Started (cfg : Cfg) (w0 : World) : Prop :=
  ∃ deployer owner key fee balance epoch p effs,
    guaranteeFund < balance ∧ balance < two128 ∧
    new (initEnv cfg deployer balance epoch) false owner key fee = .ok (p, effs) ∧
    w0 = initWorld p effs balance epoch

/-- `w` is reachable by some history. -/
def Reachable (cfg : Cfg) (w : World) : Prop := ∃ w0 evs, Started cfg w0 ∧ w = run cfg w0 evs

/-- Tokens that came in from outside during a history: rewards, plain transfers, refunds. -/
def inflow : List Ev → Nat
  | [] => 0
  | .reward r :: t => r + inflow t
  | .income r :: t => r + inflow t
  | _ :: t => inflow t

/-- The event is a call by `a`. -/
def Ev.isCallBy (a : AccountId) : Ev → Prop
  | .call who _ _ => who = a
  | _ => False

theorem run_append (cfg : Cfg) (w : World) (l1 l2 : List Ev) :
    run cfg w (l1 ++ l2) = run cfg (run cfg w l1) l2 := by
  induction l1 generalizing w with
  | nil => rfl
  | cons h t ih => exact ih _

theorem Reachable.run {cfg : Cfg} {w : World} (h : Reachable cfg w) (evs : List Ev) :
    Reachable cfg (run cfg w evs) := by
  obtain ⟨w0, l, hs, rfl⟩ := h
  exact ⟨w0, l ++ evs, hs, (run_append cfg w0 l evs).symm⟩

end Verif.StakingPool
