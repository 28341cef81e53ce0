import Verif.Voting.Model
import Verif.Common.Since

/-!
# Histories of the voting contract

The validators of each epoch and their stakes are an arbitrary function of the epoch height (the
protocol fixes them for the whole epoch).
-/

namespace Verif.Voting

open Verif

/-- The validators with their stakes, by epoch height. -/
structure Cfg where
  stakes : Nat → UMap AccountId Nat

/-- Global state. -/
structure World where
  c : State
  epoch : Nat
  now : Nat

/-- Events. -/
inductive Ev where
  | call (who : AccountId) (attached : Nat) (c : Call)
  /-- time passes -/
  | tick (dt : Nat)
  /-- `k` epochs pass -/
  | epochs (k : Nat)
deriving DecidableEq, Repr

/-- The environment of a call. -/
def mkEnv (cfg : Cfg) (w : World) (who : AccountId) (att : Nat) : Env :=
  { predecessor := who, attachedDeposit := att, epochHeight := w.epoch, now := w.now,
    stakes := cfg.stakes w.epoch }

/-- One event; a panicking call changes nothing. -/
def step (cfg : Cfg) (w : World) : Ev → World
  | .call who att c =>
    match exec (mkEnv cfg w who att) w.c c with
    | .ok s => { w with c := s }
    | .error _ => w
  | .tick dt => { w with now := w.now + dt }
  | .epochs k => { w with epoch := w.epoch + k }

/-- A history. -/
def run (cfg : Cfg) (w : World) (evs : List Ev) : World := evs.foldl (step cfg) w

/-- Right after `new`, in any epoch and at any time. -/
def Started (w0 : World) : Prop :=
  ∃ e, new e false = .ok w0.c ∧ w0.epoch = e.epochHeight ∧ w0.now = e.now

/-- `w` is reachable by some history. -/
def Reachable (cfg : Cfg) (w : World) : Prop := ∃ w0 evs, Started w0 ∧ w = run cfg w0 evs

/-- The stake of an account in an epoch. -/
def stakeAt (cfg : Cfg) (ep : Nat) (a : AccountId) : Nat := ((cfg.stakes ep).get a).getD 0

/-- The stake of all validators in an epoch. -/
def totalAt (cfg : Cfg) (ep : Nat) : Nat := ((cfg.stakes ep).entries.map Prod.snd).sum

/-- The total stake is below 2^127 in every epoch (the supply of NEAR is about 2^110 yocto). -/
def Bounded (cfg : Cfg) : Prop := ∀ ep, 2 * totalAt cfg ep < two128

end Verif.Voting
