import Verif.Lockup.Model

/-!
# The lockup account inside the runtime

`World` = contract state + tokens of the account + receipts in flight + what the staking pools hold
for the lockup + history variables. A history is a `List Ev`: every interleaving of calls, receipts
executed at other contracts (with any result), callbacks, refunds and time is covered.

Runtime facts modelled here (not in /repo, see DESIGN.md): a panicking call changes nothing; tokens
attached to a promise are debited when it is created; a failed receipt refunds its deposit to the
lockup; a callback runs with the result of its promise and with the contract itself as predecessor;
refunds and pool payouts arrive in any order relative to callbacks.
-/

namespace Verif.Lockup

open Verif

/-- Constants of the deployment. -/
structure Cfg where
  self : AccountId
  validAccountId : AccountId → Bool
  sha256 : Bytes → Bytes
  /-- whether staking pools keep their word: a successful `withdraw` is covered by what they hold
  for the lockup, and `get_account_total_balance` never reports more than that -/
  honestPools : Bool

/-- Progress of a receipt in flight. -/
inductive Phase where
  /-- not executed yet -/
  | sent
  /-- executed with this result; the callback has not run yet -/
  | done (r : PResult)
deriving DecidableEq, Repr

/-- A promise created by the lockup that is not finished. -/
structure Pending where
  ext : Ext
  cb : Option Callback
  phase : Phase
deriving DecidableEq, Repr

/-- Global state. Everything from `loss` on is a history variable: nothing reads it. -/
structure World where
  c : Lockup
  bal : Nat
  now : Nat
  pend : List Pending
  /-- refunds and pool payouts on their way to the account -/
  incoming : Nat
  /-- tokens that staking pools hold for the lockup -/
  held : Nat
  /-- tokens the pools lost so far (rounding of share prices) -/
  loss : Nat
  /-- tokens paid by `termination_withdraw` so far -/
  paid : Nat
  /-- the unvested amount fixed by `terminate_vesting` -/
  fixedUnvested : Option Nat
  /-- pools for which an owner call issued a whitelist query -/
  queried : List AccountId
  /-- pools for which the whitelist contract answered a query with `true` -/
  approved : List AccountId
  /-- positive answers of poll contracts -/
  pollAnswers : List (AccountId × Nat)
  /-- a full access key was added -/
  fullKey : Bool

/-- Events. -/
inductive Ev where
  /-- account `who` calls a method with a deposit -/
  | call (who : AccountId) (attached : Nat) (c : Call)
  /-- the `i`-th pending receipt is executed at its receiver with result `r` -/
  | execute (i : Nat) (r : PResult)
  /-- the callback of the `i`-th pending receipt runs -/
  | callback (i : Nat)
  /-- `x` of the incoming tokens arrive -/
  | arrive (x : Nat)
  /-- tokens from elsewhere: plain transfers, gas rebates -/
  | income (x : Nat)
  /-- time passes -/
  | tick (dt : Nat)
  /-- rewards for the tokens held by pools -/
  | poolReward (x : Nat)
  /-- tokens held by pools lost to rounding -/
  | poolLoss (x : Nat)
deriving DecidableEq, Repr

/-- The environment seen by a call. -/
def mkEnv (cfg : Cfg) (w : World) (who : AccountId) (attached : Nat) (r : Option PResult) : Env :=
  { self := cfg.self, predecessor := who, attachedDeposit := attached,
    accountBalance := w.bal + attached, now := w.now, result := r,
    validAccountId := cfg.validAccountId, sha256 := cfg.sha256 }

/-- Tokens attached by an optional effect. -/
def effAttached : Option Eff → Nat
  | none => 0
  | some f => f.ext.attached

/-- The receipt created by an optional effect. -/
def effPending : Option Eff → List Pending
  | none => []
  | some f => [⟨f.ext, f.callback, .sent⟩]

/-- History variable: pools queried by the effect. -/
def effQueried : Option Eff → List AccountId
  | some ⟨.isWhitelisted _ p, _⟩ => [p]
  | _ => []

/-- History variable: the amount fixed when the vesting becomes `Terminating`. -/
def newFixed (old new : Vesting) (f : Option Nat) : Option Nat :=
  match old.isTerminating, new with
  | false, .terminating u _ => some u
  | _, _ => f

/-- Commit a successful call. -/
def commit (w : World) (attached : Nat) (c : Lockup) (eff : Option Eff) : World :=
  { w with
    c := c
    bal := w.bal + attached - effAttached eff
    pend := w.pend ++ effPending eff
    fixedUnvested := newFixed w.c.vesting c.vesting w.fixedUnvested
    queried := effQueried eff ++ w.queried }

/-- A call: on a panic nothing changes. The host refuses to attach tokens the account lacks. -/
def doCall (cfg : Cfg) (w : World) (who : AccountId) (attached : Nat) (r : Option PResult)
    (c : Call) : World :=
  match exec (mkEnv cfg w who attached r) w.c c with
  | .ok (c', eff) => if effAttached eff ≤ w.bal + attached then commit w attached c' eff else w
  | .error _ => w

/-- What happens to tokens when a receipt is executed at its receiver with proposed result `r`:
the actual result and the new world (without touching `pend`). -/
def runExt (cfg : Cfg) (w : World) (p : Pending) (r : PResult) : PResult × World :=
  match p.ext with
  | .poolDeposit _ a =>
    if r = .failed then (r, { w with incoming := w.incoming + a })
    else (r, { w with held := w.held + a })
  | .poolDepositAndStake _ a =>
    if r = .failed then (r, { w with incoming := w.incoming + a })
    else (r, { w with held := w.held + a })
  | .poolWithdraw _ a =>
    if r = .failed then (r, w)
    else if a ≤ w.held then (r, { w with held := w.held - a, incoming := w.incoming + a })
    else if cfg.honestPools = true then (.failed, w)
    else (r, { w with held := 0, incoming := w.incoming + w.held })
  | .poolTotalBalance _ =>
    match r with
    | .balance v => if cfg.honestPools = true ∧ w.held < v then (.failed, w) else (r, w)
    | _ => (r, w)
  | .transfer receiver a =>
    if r = .failed then (r, { w with incoming := w.incoming + a })
    else
      (r, { w with
            incoming := w.incoming + (if receiver = cfg.self then a else 0)
            paid := w.paid + (if p.cb = none then 0 else a) })
  | .isWhitelisted wl pool =>
    (r, if r = .bool true ∧ wl = w.c.whitelist then { w with approved := pool :: w.approved } else w)
  | .getResult poll =>
    match r with
    | .poll (some t) => (r, { w with pollAnswers := (poll, t) :: w.pollAnswers })
    | _ => (r, w)
  | .addFullAccessKey _ =>
    (r, if r = .failed then w else { w with fullKey := true })
  | _ => (r, w)

/-- Execute a pending receipt at its receiver. -/
def execute (cfg : Cfg) (w : World) (i : Nat) (r : PResult) : World :=
  match w.pend[i]? with
  | some ⟨ext, cb, .sent⟩ =>
    let (r', w') := runExt cfg w ⟨ext, cb, .sent⟩ r
    match cb with
    | none => { w' with pend := w.pend.eraseIdx i }
    | some cb => { w' with pend := w.pend.set i ⟨ext, some cb, .done r'⟩ }
  | _ => w

/-- Run the callback of an executed receipt. -/
def callback (cfg : Cfg) (w : World) (i : Nat) : World :=
  match w.pend[i]? with
  | some ⟨_, some cb, .done r⟩ =>
    doCall cfg { w with pend := w.pend.eraseIdx i } cfg.self 0 (some r) (.callback cb)
  | _ => w

/-- One event. Calls by the lockup account itself happen only as callbacks (it has no keys). -/
def step (cfg : Cfg) (w : World) : Ev → World
  | .call who attached c => if who = cfg.self then w else doCall cfg w who attached none c
  | .execute i r => execute cfg w i r
  | .callback i => callback cfg w i
  | .arrive x =>
    if x ≤ w.incoming then { w with incoming := w.incoming - x, bal := w.bal + x } else w
  | .income x => { w with bal := w.bal + x }
  | .tick dt => { w with now := w.now + dt }
  | .poolReward x => { w with held := w.held + x }
  | .poolLoss x =>
    if x ≤ w.held then { w with held := w.held - x, loss := w.loss + x } else w

/-- A history. -/
def run (cfg : Cfg) (w : World) : List Ev → World
  | [] => w
  | ev :: t => run cfg (step cfg w ev) t

/-- The world right after a successful `new` on an account holding `balance` tokens. -/
def initWorld (c : Lockup) (balance now : Nat) : World :=
  { c := c, bal := balance, now := now, pend := [], incoming := 0, held := 0, loss := 0, paid := 0,
    fixedUnvested := none, queried := [], approved := [], pollAnswers := [], fullKey := false }

/-- Environment of the initializing call. -/
def initEnv (cfg : Cfg) (deployer : AccountId) (balance now : Nat) : Env :=
  { self := cfg.self, predecessor := deployer, attachedDeposit := 0, accountBalance := balance,
    now := now, result := none, validAccountId := cfg.validAccountId, sha256 := cfg.sha256 }

/-- `w0` is the world right after a successful `new` with arguments `a` (balances are `u128`). -/
def Started (cfg : Cfg) (a : NewArgs) (w0 : World) : Prop :=
  ∃ deployer balance now c,
    balance < two128 ∧
    new (initEnv cfg deployer balance now) false a = .ok c ∧ w0 = initWorld c balance now

/-- `w` is reachable by some history. -/
def Reachable (cfg : Cfg) (a : NewArgs) (w : World) : Prop :=
  ∃ w0 evs, Started cfg a w0 ∧ w = run cfg w0 evs

theorem run_append (cfg : Cfg) (w : World) (l1 l2 : List Ev) :
    run cfg w (l1 ++ l2) = run cfg (run cfg w l1) l2 := by
  induction l1 generalizing w with
  | nil => rfl
  | cons h t ih => exact ih _

theorem Reachable.run {cfg : Cfg} {a : NewArgs} {w : World} (h : Reachable cfg a w)
    (evs : List Ev) : Reachable cfg a (run cfg w evs) := by
  obtain ⟨w0, l, hs, rfl⟩ := h
  exact ⟨w0, l ++ evs, hs, (run_append cfg w0 l evs).symm⟩

end Verif.Lockup
