import Verif.Common.Basic
import Verif.Common.UMap
import Verif.Common.Since

/-!
# Model of the staking pool whitelist (whitelist/src/lib.rs, near-sdk 2.0.0)
-/

namespace Verif.Whitelist

open Verif

/-- whitelist/src/lib.rs:10-21 `WhitelistContract`. A `LookupSet` is a map to `Unit`. -/
structure State where
  foundation : AccountId
  whitelist : UMap AccountId Unit
  factoryWhitelist : UMap AccountId Unit

/-- What a call sees. -/
structure Env where
  predecessor : AccountId
  attachedDeposit : Nat
  /-- `env::is_valid_account_id` -/
  validAccountId : AccountId → Bool

/-- Methods without `#[payable]` reject deposits. -/
def notPayable (e : Env) : R Unit := require (e.attachedDeposit = 0) "Method doesn't accept deposit"

/-- whitelist/src/lib.rs:33-44 `new`. -/
def new (e : Env) (stateExists : Bool) (foundation : AccountId) : R State := do
  notPayable e
  require (stateExists = false) "Already initialized"
  require (e.validAccountId foundation = true) "The NEAR Foundation account ID is invalid"
  pure { foundation := foundation, whitelist := .empty, factoryWhitelist := .empty }

/-- whitelist/src/lib.rs:51-57 `is_whitelisted`. -/
def isWhitelisted (e : Env) (s : State) (pool : AccountId) : R Bool := do
  require (e.validAccountId pool = true) "The given account ID is invalid"
  pure (s.whitelist.contains pool)

/-- whitelist/src/lib.rs:60-66 `is_factory_whitelisted`. -/
def isFactoryWhitelisted (e : Env) (s : State) (factory : AccountId) : R Bool := do
  require (e.validAccountId factory = true) "The given account ID is invalid"
  pure (s.factoryWhitelist.contains factory)

/-- whitelist/src/lib.rs:135-141 `assert_called_by_foundation`. -/
def assertFoundation (e : Env) (s : State) : R Unit :=
  require (e.predecessor = s.foundation) "Can only be called by NEAR Foundation"

/-- whitelist/src/lib.rs:80-86: can only be called by a whitelisted factory or by the foundation. -/
def assertFactoryOrFoundation (e : Env) (s : State) : R Unit :=
  if s.factoryWhitelist.contains e.predecessor = false then assertFoundation e s else pure ()

/-- whitelist/src/lib.rs:75-88 `add_staking_pool`. -/
def addStakingPool (e : Env) (s : State) (pool : AccountId) : R (State × Bool) := do
  require (e.validAccountId pool = true) "The given account ID is invalid"
  assertFactoryOrFoundation e s
  pure ({ s with whitelist := s.whitelist.insert pool () }, !s.whitelist.contains pool)

/-- whitelist/src/lib.rs:97-104 `remove_staking_pool`. -/
def removeStakingPool (e : Env) (s : State) (pool : AccountId) : R (State × Bool) := do
  assertFoundation e s
  require (e.validAccountId pool = true) "The given account ID is invalid"
  pure ({ s with whitelist := s.whitelist.remove pool }, s.whitelist.contains pool)

/-- whitelist/src/lib.rs:109-116 `add_factory`. -/
def addFactory (e : Env) (s : State) (factory : AccountId) : R (State × Bool) := do
  require (e.validAccountId factory = true) "The given account ID is invalid"
  assertFoundation e s
  pure ({ s with factoryWhitelist := s.factoryWhitelist.insert factory () },
    !s.factoryWhitelist.contains factory)

/-- whitelist/src/lib.rs:121-128 `remove_factory`. -/
def removeFactory (e : Env) (s : State) (factory : AccountId) : R (State × Bool) := do
  assertFoundation e s
  require (e.validAccountId factory = true) "The given account ID is invalid"
  pure ({ s with factoryWhitelist := s.factoryWhitelist.remove factory },
    s.factoryWhitelist.contains factory)

/-- Public methods that change the state. -/
inductive Call where
  | addPool (pool : AccountId)
  | removePool (pool : AccountId)
  | addFactory (factory : AccountId)
  | removeFactory (factory : AccountId)
deriving DecidableEq, Repr

/-- Dispatch: the new state and the returned value. -/
def exec (e : Env) (s : State) (c : Call) : R (State × Bool) := do
  notPayable e
  match c with
  | .addPool p => addStakingPool e s p
  | .removePool p => removeStakingPool e s p
  | .addFactory f => Whitelist.addFactory e s f
  | .removeFactory f => Whitelist.removeFactory e s f

/-! ## Histories -/

/-- A call of the contract. -/
structure Ev where
  who : AccountId
  attached : Nat
  call : Call
deriving DecidableEq, Repr

/-- The environment of a call; `valid` is the host's notion of a valid account id. -/
def mkEnv (valid : AccountId → Bool) (who : AccountId) (att : Nat) : Env :=
  { predecessor := who, attachedDeposit := att, validAccountId := valid }

/-- One call; a panicking call changes nothing. -/
def step (valid : AccountId → Bool) (s : State) (ev : Ev) : State :=
  match exec (mkEnv valid ev.who ev.attached) s ev.call with
  | .ok (s', _) => s'
  | .error _ => s

/-- A history. -/
def run (valid : AccountId → Bool) (s : State) (evs : List Ev) : State := evs.foldl (step valid) s

/-- Right after `new(foundation)`. -/
def Started (valid : AccountId → Bool) (foundation : AccountId) (s : State) : Prop :=
  ∃ who, new (mkEnv valid who 0) false foundation = .ok s

end Verif.Whitelist
