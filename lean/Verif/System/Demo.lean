import Verif.System.Model
import Verif.Lockup.Demo
import Verif.StakingPool.Demo
import Verif.Voting.Props
import Verif.Whitelist.Props

/-! # A concrete system that witnesses the hypotheses of the theorems -/

namespace Verif.System

open Verif

/-- The deployment of the example. -/
def demoCfg : Cfg :=
  { lockup := "lockup", validAccountId := fun _ => true, validPublicKey := fun k => decide (k ≠ "bad"),
    sha256 := id, whitelist := "wl", poll := "poll", voting := Voting.demoCfg }

/-- A lockup right after `new`, no pools, an empty whitelist and a new poll. -/
def startOf (a : Lockup.NewArgs) : Sys :=
  { lk := Lockup.startOf a, pools := .empty, wl := Whitelist.demo0,
    poll := { Voting.demo0 with now := 1000 } }

theorem started_startOf {a : Lockup.NewArgs} (h : Lockup.Started Lockup.demoCfg a (Lockup.startOf a))
    (hw : a.whitelist = "wl") (hn : (Lockup.startOf a).now = 1000) :
    Started demoCfg a (startOf a) := by
  refine ⟨h, hw, ?_, ?_, ?_, hn.symm⟩
  · intro p w hg
    cases hg
  · intro p hl
    cases hl
  · exact ⟨{ Voting.demo0 with now := 1000 }, [], 
      ⟨Voting.mkEnv Voting.demoCfg { Voting.demo0 with now := 1000 } "x" 0, rfl, rfl, rfl⟩, rfl⟩

theorem demo_started : Started demoCfg Lockup.pollArgs (startOf Lockup.pollArgs) :=
  started_startOf Lockup.poll_started rfl (by decide +kernel)

/-- Two pools are deployed and whitelisted by the foundation, alice stakes at the first one; the owner
selects it and stakes five NEAR, rewards arrive. -/
def demoEvs : List Ev :=
  [.create "pool" "factory" "boss" "key" ⟨1, 10⟩ (30 * 10 ^ 24) 7,
   .create "pool2" "factory" "boss" "key" ⟨1, 10⟩ (30 * 10 ^ 24) 7,
   .whitelist ⟨"foundation", 0, .addPool "pool"⟩,
   .whitelist ⟨"foundation", 0, .addPool "pool2"⟩,
   .pool "pool" (.call "alice" (10 * 10 ^ 24 + 3) .depositAndStake),
   .call "owner" 0 (.owner (.selectStakingPool "pool")), .execute 0 true .failed, .callback 0,
   .call "owner" 0 (.owner (.depositAndStake (5 * 10 ^ 24))), .execute 0 true .failed, .callback 0,
   .pool "pool" (.epochs 1), .pool "pool" (.reward (10 ^ 22)),
   .pool "pool" (.call "alice" 0 .ping)]

/-- The system after `demoEvs`. -/
def demo : Sys := run demoCfg (startOf Lockup.pollArgs) demoEvs

/-- What a decidable check says about `Careful`. -/
def carefulB (cfg : Cfg) (s : Sys) : List Ev → Bool
  | [] => true
  | ev :: t =>
    (match ev with
      | .whitelist ⟨who, att, .addPool p⟩ => s.pools.contains p ||
        !(Whitelist.exec (Whitelist.mkEnv cfg.validAccountId who att) s.wl (.addPool p)).isOk
      | _ => true) && carefulB cfg (step cfg s ev) t

theorem careful_of_bool {cfg : Cfg} {s : Sys} {evs : List Ev} (h : carefulB cfg s evs = true) :
    Careful cfg s evs := by
  induction evs generalizing s with
  | nil => trivial
  | cons ev t ih =>
    simp only [carefulB, Bool.and_eq_true] at h
    refine ⟨?_, ih h.2⟩
    rintro who att p r rfl hr
    have h1 := h.1
    simp only [hr, R.isOk, Bool.not_true, Bool.or_false] at h1
    exact h1

theorem demo_careful : Careful demoCfg (startOf Lockup.pollArgs) demoEvs :=
  careful_of_bool (by decide +kernel)

theorem demo_reachable : Reachable demoCfg Lockup.pollArgs demo :=
  ⟨_, _, demo_started, demo_careful, rfl⟩

/-- The poll is decided by the votes of `a`, `b` and `c`, and the lockup asks for the result. -/
def demoVote : List Ev :=
  [.vote "a" 0 (.vote true), .tick 3, .vote "b" 0 (.vote true), .vote "c" 0 (.vote true), .tick 4,
   .call "owner" 0 (.owner .checkTransfersVote), .execute 0 true .failed, .callback 0]

example : demo.lk.c.staking = some ⟨"pool", false, 5 * 10 ^ 24⟩ := by decide +kernel
example : (run demoCfg demo demoVote).lk.c.info.transfers = .enabled 1003 := by decide +kernel

end Verif.System
