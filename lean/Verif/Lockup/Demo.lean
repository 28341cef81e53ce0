import Verif.Lockup.History
import Verif.Lockup.Spec

/-! # Concrete lockups that witness the hypotheses of the theorems -/

namespace Verif.Lockup

open Verif

/-- Any account id is valid and `sha256` is the identity (which is collision free). -/
def demoCfg : Cfg :=
  { self := "lockup", validAccountId := fun _ => true, sha256 := id, honestPools := true }

/-- A lockup with a public vesting schedule, transfers enabled at 1000. -/
def demoArgs : NewArgs :=
  { owner := "owner", lockupDuration := 500, lockupTimestamp := none, transfers := .enabled 1000,
    vesting := some (.schedule ⟨100, 2000, 4000⟩), releaseDuration := some 1000, whitelist := "wl",
    foundation := some "fdn" }

/-- The same with transfers disabled until the poll says otherwise. -/
def pollArgs : NewArgs := { demoArgs with transfers := .disabled "poll" }

/-- The committed schedule of the private lockup. -/
def privSalted : ScheduleWithSalt := ⟨⟨100, 2000, 4000⟩, [1, 2, 3]⟩

/-- A lockup with a private (hashed) schedule that releases everything at once. -/
def privArgs : NewArgs :=
  { demoArgs with vesting := some (.hash privSalted.borsh), releaseDuration := none }

/-- Ten NEAR. -/
def tenNear : Nat := 10000000000000000000000000

/-- The world right after `new` at time 1000. -/
def startOf (a : NewArgs) : World :=
  match new (initEnv demoCfg "deployer" tenNear 1000) false a with
  | .ok c => initWorld c tenNear 1000
  | .error _ =>
    initWorld ⟨"", ⟨0, 0, 0, none, none, .enabled 0⟩, .none, "", none, none⟩ 0 0

theorem started_startOf {a : NewArgs}
    (h : (new (initEnv demoCfg "deployer" tenNear 1000) false a).toBool = true) :
    Started demoCfg a (startOf a) := by
  unfold startOf
  cases hn : new (initEnv demoCfg "deployer" tenNear 1000) false a with
  | error m => rw [hn] at h; cases h
  | ok c => exact ⟨"deployer", tenNear, 1000, c, by decide +kernel, hn, rfl⟩

/-- Select a pool and stake five NEAR. -/
def demoStake : List Ev :=
  [.call "owner" 0 (.owner (.selectStakingPool "pool")), .execute 0 (.bool true), .callback 0,
   .call "owner" 0 (.owner (.depositAndStake 5000000000000000000000000)), .execute 0 .unit,
   .callback 0]

theorem demo_started : Started demoCfg demoArgs (startOf demoArgs) :=
  started_startOf (by decide +kernel)
theorem poll_started : Started demoCfg pollArgs (startOf pollArgs) :=
  started_startOf (by decide +kernel)
theorem priv_started : Started demoCfg privArgs (startOf privArgs) :=
  started_startOf (by decide +kernel)

/-- The lockup after staking. -/
def demoStaked : World := run demoCfg (startOf demoArgs) demoStake

theorem demoStaked_reachable : Reachable demoCfg demoArgs demoStaked :=
  ⟨_, _, demo_started, rfl⟩

theorem demo_vestingOk : VestingOk demoCfg (argVesting demoArgs) := by
  show Schedule.Valid _
  decide +kernel

end Verif.Lockup
