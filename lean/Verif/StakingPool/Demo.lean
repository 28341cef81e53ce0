import Verif.StakingPool.Totality

/-! # A concrete, non-trivial pool used to show that hypotheses of the property theorems are met -/

namespace Verif.StakingPool

open Verif

theorem isOk_iff {α : Type} {x : R α} : x.isOk = true ↔ ∃ a, x = .ok a := by
  cases x <;> simp [R.isOk]

/-- Deployment constants of the example. -/
def demoCfg : Cfg :=
  { self := "pool.near", validAccountId := fun _ => true,
    validPublicKey := fun k => decide (k ≠ "bad") }

/-- `new` with 30 NEAR, a 10% fee, in epoch 7. -/
def demoNew : R (Pool × List Eff) :=
  new (initEnv demoCfg "factory.near" (30 * 10 ^ 24) 7) false "owner.near" "key" ⟨1, 10⟩

/-- The world after the initialization. -/
def demo0 : World :=
  match demoNew with
  | .ok (p, e) => initWorld p e (30 * 10 ^ 24) 7
  | .error _ => initWorld ⟨"", "", 0, 0, 0, 0, ⟨0, 1⟩, UMap.empty, false⟩ [] 0 0

theorem demo0_started : Started demoCfg demo0 := by
  have h : demoNew.isOk = true := by decide +kernel
  obtain ⟨⟨p, effs⟩, h⟩ := isOk_iff.mp h
  refine ⟨"factory.near", "owner.near", "key", ⟨1, 10⟩, 30 * 10 ^ 24, 7, p, effs, ?_, ?_, h, ?_⟩
  · unfold guaranteeFund; norm_num
  · unfold two128; norm_num
  · unfold demo0; rw [h]

/-- Alice stakes, Bob deposits, rewards arrive, everything is distributed with odd amounts. -/
def demoEvs : List Ev :=
  [.deliver 0 true, .call "alice.near" (10 * 10 ^ 24 + 3) .depositAndStake, .deliver 1 true,
   .epochs 1, .reward 777777777777777777777, .call "bob.near" 5 .deposit, .deliver 0 true,
   .call "alice.near" 0 (.unstake 12345)]

/-- The world after `demoEvs`. -/
def demo : World := run demoCfg demo0 demoEvs

theorem demo_reachable : Reachable demoCfg demo := ⟨demo0, demoEvs, demo0_started, rfl⟩

theorem demo_bounded : Bounded demo := by
  refine ⟨?_, ?_, ?_⟩ <;> decide +kernel

example : getAccount 8 demo.pool "alice.near" =
    .ok ⟨"alice.near", 12346, 10000175000000000004362657, false⟩ := by decide +kernel
example : getAccount 8 demo.pool "owner.near" =
    .ok ⟨"owner.near", 0, 77777777777777777776, true⟩ := by decide +kernel

end Verif.StakingPool
