import Verif.Multisig2.Trace

/-! # A concrete multisig2 that witnesses the hypotheses of the theorems -/

namespace Verif.Multisig2

open Verif

/-- The members: one key and two accounts. -/
def demoMembers : List Member := [.key "k1", .account "bob", .account "carol"]

/-- The world right after `new` with the members `ms` and threshold `n`, at time 1000. -/
def startWith (ms : List Member) (n : Nat) : World :=
  match new ⟨"ms", "founder", "fk", 0, 1000, true⟩ false ms n with
  | .ok (c, _) => ⟨c, 1000, []⟩
  | .error _ => ⟨⟨.empty, 0, ⟨0, .empty, .empty, .empty⟩, 0⟩, 0, []⟩

/-- Two of three. -/
def demoStart : World := startWith demoMembers 2

theorem demo_started : Started "ms" demoMembers 2 demoStart :=
  ⟨_, _, 1000, "founder", "fk", rfl, rfl⟩

/-- A payment of five to `dave`. -/
def demoPay : Request := ⟨"dave", [.transfer 5]⟩
/-- Demand three confirmations. -/
def demoThree : Request := ⟨"ms", [.setNumConfirmations 3]⟩
/-- Remove the key member and pay. -/
def demoDrop : Request := ⟨"ms", [.deleteMember (.key "k1"), .transfer 1]⟩
/-- Let `dave` in. -/
def demoLet : Request := ⟨"ms", [.addMember (.account "dave"), .addMember (.key "k2")]⟩

/-- The key member adds a payment and confirms it. -/
def demoAdd : List Ev := [.call "ms" "k1" 0 true (.addRequestAndConfirm demoPay)]
/-- `bob` confirms the payment. -/
def demoConfirm : Ev := .call "bob" "bobkey" 0 true (.confirm 0)

end Verif.Multisig2
