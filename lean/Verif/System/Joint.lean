import Verif.System.Model
import Verif.Factory.Pool

/-!
# The system together with the staking pool factory

The lockup, the pools, the whitelist and the poll of `Verif.System` and the staking pool factory of
`Verif.PoolFactory` in one world: the whitelist is shared, and the accounts the factory creates are
pools of the system. So the assumption of `Verif.System` that only pools get on the whitelist is no
longer an assumption about the factory.
-/

namespace Verif.System

open Verif Verif.Factory

/-- Constants of the deployment. -/
structure JCfg where
  sys : Cfg
  /-- account of the staking pool factory -/
  factory : AccountId
  /-- accounts that already exist when the factory is initialized -/
  existing : AccountId → Bool

/-- The staking pool factory. -/
def JCfg.fac (cfg : JCfg) : PoolFactory.Cfg :=
  ⟨cfg.factory, cfg.sys.validAccountId, cfg.sys.validPublicKey, cfg.existing⟩

/-- Global state. The whitelist is that of `sys`; the field `wl` of `fac` is not read. -/
structure Joint where
  sys : Sys
  fac : PoolFactory.World

/-- What the factory and its receipts see. -/
def Joint.world (j : Joint) : PoolFactory.World := { j.fac with wl := j.sys.wl }

/-- Events. -/
inductive JEv where
  | sys (ev : Ev)
  | fac (ev : PoolFactory.Ev)

/-- The staking pool that exists after the event `ev` of the factory, but not before:
staking-pool-factory/src/lib.rs:172-186 (the batch that creates the account). -/
def newborn (w w' : PoolFactory.World) : PoolFactory.Ev → Option (AccountId × StakingPool.World)
  | .deliver i _ =>
    match w.receipts[i]? with
    | some (.create b _ _ _) =>
      match w.accounts.get b.receiver, w'.accounts.get b.receiver with
      | none, some acc => if acc.code = .stakingPool then some (b.receiver, acc.pool) else none
      | _, _ => none
    | _ => none
  | _ => none

/-- An event of the factory: the whitelist and the pools of the system change with it. -/
def facStep (cfg : JCfg) (j : Joint) (ev : PoolFactory.Ev) : Joint :=
  let w' := PoolFactory.step cfg.fac j.world ev
  { sys :=
      { j.sys with
        wl := w'.wl
        pools := match newborn j.world w' ev with
          | some (p, w) => j.sys.pools.insert p w
          | none => j.sys.pools }
    fac := w' }

/-- One event. The factory account only makes the calls its contract makes, and only the factory
creates direct sub-accounts of its account (protocol rule). Calls of the whitelist are events of the
system. -/
def jstep (cfg : JCfg) (j : Joint) : JEv → Joint
  | .sys (.whitelist ev) =>
    if ev.who = cfg.factory then j else { j with sys := step cfg.sys j.sys (.whitelist ev) }
  | .sys (.create p deployer owner key fee balance epoch) =>
    if directSub cfg.factory p = true ∧ cfg.existing p = false then j
    else { j with sys := step cfg.sys j.sys (.create p deployer owner key fee balance epoch) }
  | .sys ev => { j with sys := step cfg.sys j.sys ev }
  | .fac (.whitelistCall _) => j
  | .fac ev => facStep cfg j ev

/-- A history. -/
def jrun (cfg : JCfg) (j : Joint) : List JEv → Joint
  | [] => j
  | ev :: t => jrun cfg (jstep cfg j ev) t

/-- The moment after a successful `new` of the lockup. The factory may be in use already; the pools it
has created belong to the system, and nobody else has created sub-accounts of it. The lockup and the
factory use the modelled whitelist; the lockup is not created by the staking pool factory. -/
structure JStarted (cfg : JCfg) (a : Lockup.NewArgs) (j0 : Joint) : Prop where
  sys : Started cfg.sys a j0.sys
  fac : ∃ w0 fevs, PoolFactory.Started cfg.fac w0 ∧ j0.world = PoolFactory.run cfg.fac w0 fevs
  whitelist : j0.fac.c.whitelistId = cfg.sys.whitelist
  lockup : directSub cfg.factory cfg.sys.lockup = true → cfg.existing cfg.sys.lockup = true
  created : ∀ p acc, j0.fac.accounts.get p = some acc → ∃ evs,
    j0.sys.pools.get p = some (StakingPool.run (cfg.sys.pool p) acc.pool evs)
  others : ∀ p, j0.sys.pools.contains p = true → directSub cfg.factory p = true →
    cfg.existing p = false → j0.fac.accounts.contains p = true

/-- The assumption about everybody but the factory: an accepted `add_staking_pool` is about an account
that runs the staking pool contract. -/
def JCareful (cfg : JCfg) (j : Joint) : List JEv → Prop
  | [] => True
  | ev :: t =>
    (∀ who att p r, ev = .sys (.whitelist ⟨who, att, .addPool p⟩) → who ≠ cfg.factory →
      Whitelist.exec (Whitelist.mkEnv cfg.sys.validAccountId who att) j.sys.wl (.addPool p) = .ok r →
      j.sys.pools.contains p = true) ∧
    JCareful cfg (jstep cfg j ev) t

/-- What the foundation does at the whitelist: it lists no pools itself and admits no other factory than
the modelled one. -/
def FoundationTrusts (cfg : JCfg) (foundation : AccountId) (evs : List JEv) : Prop :=
  (∀ att p, .sys (.whitelist ⟨foundation, att, .addPool p⟩) ∉ evs) ∧
  ∀ att f, .sys (.whitelist ⟨foundation, att, .addFactory f⟩) ∈ evs → f = cfg.factory

end Verif.System
