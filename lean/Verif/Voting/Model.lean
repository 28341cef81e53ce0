import Verif.Common.Basic
import Verif.Common.UMap

/-!
# Model of the voting contract (voting/src/lib.rs, near-sdk 2.0.0)

The votes (`HashMap<AccountId, Balance>`) are a map with an order of its own; the order only matters
for the loop of `ping`, whose outcome does not depend on it (addition is commutative, and an overflow
of a partial sum implies one of the total).
-/

namespace Verif.Voting

open Verif

/-- voting/src/lib.rs:15-24 `VotingContract`. -/
structure State where
  votes : UMap AccountId Nat
  totalVotedStake : Nat
  result : Option Nat
  lastEpochHeight : Nat

/-- What a call sees. `stakes`: the validators of the current epoch with their stakes
(`env::validator_stake` is 0 for others, `env::validator_total_stake` their sum). -/
structure Env where
  predecessor : AccountId
  attachedDeposit : Nat
  epochHeight : Nat
  now : Nat
  stakes : UMap AccountId Nat

/-- Host function `validator_stake`. -/
def validatorStake (e : Env) (a : AccountId) : Nat := (e.stakes.get a).getD 0

/-- Host function `validator_total_stake`. -/
def validatorTotalStake (e : Env) : Nat := e.stakes.sum (fun _ v => v)

/-- Methods without `#[payable]` reject deposits. -/
def notPayable (e : Env) : R Unit := require (e.attachedDeposit = 0) "Method doesn't accept deposit"

/-- voting/src/lib.rs:34-43 `new`. -/
def new (e : Env) (stateExists : Bool) : R State := do
  notPayable e
  require (stateExists = false) "The contract is already initialized"
  pure { votes := .empty, totalVotedStake := 0, result := none, lastEpochHeight := 0 }

/-- voting/src/lib.rs:52-58: the loop of `ping`. -/
def recount (stakeOf : AccountId → Nat) :
    List AccountId → Nat → UMap AccountId Nat → R (Nat × UMap AccountId Nat)
  | [], total, votes => pure (total, votes)
  | a :: t, total, votes => do
    let total ← addU128 total (stakeOf a)
    recount stakeOf t total (if stakeOf a > 0 then votes.insert a (stakeOf a) else votes)

/-- voting/src/lib.rs:65-74 `check_result`. -/
def checkResult (e : Env) (s : State) : R State := do
  require (s.result = none) "check result is called after result is already set"
  let d ← mulU128 2 (validatorTotalStake e)
  if s.totalVotedStake > d / 3 then pure { s with result := some e.now }
  else pure s

/-- voting/src/lib.rs:46-62 `ping`. -/
def ping (e : Env) (s : State) : R State := do
  require (s.result = none) "Voting has already ended"
  if e.epochHeight ≠ s.lastEpochHeight then do
    let (total, votes) ← recount (validatorStake e) s.votes.keys 0 .empty
    let s ← checkResult e { s with votes := votes, totalVotedStake := total }
    pure { s with lastEpochHeight := e.epochHeight }
  else pure s

/-- voting/src/lib.rs:78-103 `vote`. -/
def vote (e : Env) (s : State) (isVote : Bool) : R State := do
  let s ← ping e s
  if s.result.isSome then pure s
  else do
    let stake ← if isVote then do
        require (validatorStake e e.predecessor > 0) "is not a validator"
        pure (validatorStake e e.predecessor)
      else pure 0
    let voted := (s.votes.get e.predecessor).getD 0
    require (voted ≤ s.totalVotedStake)
      "invariant: voted stake is more than total voted stake"
    let t ← addU128 s.totalVotedStake stake
    let total ← subU t voted
    let s := { s with votes := s.votes.remove e.predecessor, totalVotedStake := total }
    if stake > 0 then checkResult e { s with votes := s.votes.insert e.predecessor stake }
    else pure s

/-- Public methods that change the state. -/
inductive Call where
  | ping
  | vote (isVote : Bool)
deriving DecidableEq, Repr

/-- Dispatch. -/
def exec (e : Env) (s : State) : Call → R State
  | .ping => do notPayable e; ping e s
  | .vote b => do notPayable e; vote e s b

/-! ## Views -/

/-- voting/src/lib.rs:106-108 `get_result`. -/
def getResult (s : State) : Option Nat := s.result

/-- voting/src/lib.rs:113-118 `get_total_voted_stake`. -/
def getTotalVotedStake (e : Env) (s : State) : Nat × Nat :=
  (s.totalVotedStake, validatorTotalStake e)

/-- voting/src/lib.rs:123-128 `get_votes` (in some order). -/
def getVotes (s : State) : List (AccountId × Nat) := s.votes.entries

end Verif.Voting
