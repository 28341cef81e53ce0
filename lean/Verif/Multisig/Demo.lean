import Verif.Multisig.Trace

/-! # A concrete multisig that witnesses the hypotheses of the theorems -/

namespace Verif.Multisig

open Verif

/-- The world right after `new(2)` at time 1000. -/
def demoStart : World :=
  match new 0 false 2 with
  | .ok c => ⟨c, 1000, []⟩
  | .error _ => ⟨⟨0, ⟨0, .empty, .empty, .empty⟩, 0⟩, 0, []⟩

theorem demo_started : Started 2 demoStart := by
  refine ⟨_, 1000, rfl, rfl⟩

/-- A payment of five to `bob`. -/
def demoPay : Request := ⟨"bob", [.transfer 5]⟩
/-- Demand three confirmations. -/
def demoThree : Request := ⟨"ms", [.setNumConfirmations 3]⟩
/-- Remove the key `k1`. -/
def demoDrop : Request := ⟨"ms", [.deleteKey "k1"]⟩

/-- `k1` adds a payment and confirms it. -/
def demoAdd : List Ev := [.call "ms" "k1" 0 true (.addRequestAndConfirm demoPay)]
/-- `k2` confirms the payment. -/
def demoConfirm : Ev := .call "ms" "k2" 0 true (.confirm 0)
/-- The threshold is raised to three. -/
def demoRaise : List Ev :=
  [.call "ms" "k1" 0 true (.addRequest demoThree), .call "ms" "k2" 0 true (.confirm 0)]
def demoRaiseLast : Ev := .call "ms" "k3" 0 true (.confirm 0)

end Verif.Multisig
