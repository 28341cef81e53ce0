import Verif.Lockup.WorldInv

/-!
# What the lockup is documented to do (independent of the model's helper functions)

lockup/README.md: release starts at the later of "transfers enabled + lockup duration" and the lockup
timestamp; tokens are released linearly over the release duration; vesting is linear with a cliff.
Plain arithmetic on natural numbers, no saturation and no panics.
-/

namespace Verif.Lockup

open Verif

/-- The moment from which tokens are released. -/
def specMoment (transfersAt duration : Nat) (lockupTs : Option Nat) : Nat :=
  match lockupTs with
  | none => transfersAt + duration
  | some t => max (transfersAt + duration) t

/-- Tokens not released yet at `now ≥ moment`. -/
def specUnreleased (amount moment now : Nat) : Option Nat → Nat
  | none => 0
  | some release =>
    if now < moment + release then amount * (moment + release - now) / release else 0

/-- Tokens not vested yet. -/
def specUnvested (amount : Nat) (vs : Schedule) (now : Nat) : Nat :=
  if now < vs.cliff then amount
  else if now < vs.finish then amount * (vs.finish - now) / (vs.finish - vs.start)
  else 0

/-- The part of the lockup amount that is unvested according to the contract's vesting information
(a hashed schedule is unknown and counts as nothing). -/
def specUnvestedPart (s : Lockup) (now : Nat) : Nat :=
  match s.vesting with
  | .none => 0
  | .hash _ => 0
  | .schedule vs => specUnvested s.info.lockupAmount vs now
  | .terminating u _ => u

/-- The locked amount. -/
def specLocked (s : Lockup) (now : Nat) : Nat :=
  match s.info.transfers with
  | .disabled _ => s.info.lockupAmount - s.info.terminationWithdrawn
  | .enabled t =>
    let m := specMoment t s.info.lockupDuration s.info.lockupTimestamp
    if now < m then s.info.lockupAmount - s.info.terminationWithdrawn
    else
      max (specUnreleased s.info.lockupAmount m now s.info.releaseDuration
            - s.info.terminationWithdrawn)
        (specUnvestedPart s now)

/-- The release of this contract ends within the range of `u64` timestamps (the year 2554). -/
def ReleaseInRange (s : Lockup) : Prop :=
  ∀ t r, s.info.transfers = .enabled t → s.info.releaseDuration = some r →
    specMoment t s.info.lockupDuration s.info.lockupTimestamp + r < two64

theorem unvestedVal_spec (amount now : Nat) (vs : Schedule) :
    unvestedVal amount now vs = specUnvested amount vs now := by
  unfold unvestedVal specUnvested
  split
  · rfl
  · by_cases h : vs.finish ≤ now
    · rw [if_pos h, if_neg (by omega)]
    · rw [if_neg h, if_pos (by omega)]

theorem lockedUnvestedVal_spec (s : Lockup) (now : Nat) :
    lockedUnvestedVal s now = specUnvestedPart s now := by
  unfold lockedUnvestedVal specUnvestedPart
  cases s.vesting <;> simp only [unvestedVal_spec]

theorem lockupMoment_le_spec (i : LockupInfo) (t : Nat) :
    lockupMoment i t ≤ specMoment t i.lockupDuration i.lockupTimestamp := by
  unfold lockupMoment specMoment satAdd64
  cases i.lockupTimestamp <;> simp only [Option.getD_none, Option.getD_some] <;> omega

theorem lockupMoment_spec {i : LockupInfo} {t now : Nat} (hn : now < two64 - 1) :
    (lockupMoment i t ≤ now ↔ specMoment t i.lockupDuration i.lockupTimestamp ≤ now) ∧
    (lockupMoment i t ≤ now →
      lockupMoment i t = specMoment t i.lockupDuration i.lockupTimestamp) := by
  unfold lockupMoment specMoment satAdd64
  cases i.lockupTimestamp <;> simp only [Option.getD_none, Option.getD_some] <;> omega

end Verif.Lockup
