import Verif.Common.Basic
import Verif.Common.UMap

/-!
# What the factories need of the runtime

The contract codes that the factories embed (`include_bytes!`) and the protocol rule for creating
accounts: an account can only create direct sub-accounts of itself.
-/

namespace Verif.Factory

open Verif

/-- The embedded contracts: staking-pool-factory/src/lib.rs:175, lockup-factory/src/lib.rs:18 and
multisig-factory/src/lib.rs:10. -/
inductive Code where
  | stakingPool
  | lockup
  | multisig2
deriving DecidableEq, Repr

/-- The account id `name.parent`. -/
def subAccount (name parent : AccountId) : AccountId := name ++ "." ++ parent

/-- Protocol rule (nearcore `AccountId::is_sub_account_of`): the id ends with `.parent`, and what is
before has no dot. -/
def directSub (parent id : AccountId) : Bool :=
  let p := parent.toList
  let i := id.toList
  let n := i.length - (p.length + 1)
  decide (i.drop n = '.' :: p) && decide ('.' ∉ i.take n)

theorem directSub_subAccount (name parent : AccountId) :
    directSub parent (subAccount name parent) = decide ('.' ∉ name.toList) := by
  unfold directSub subAccount
  have h : (name ++ "." ++ parent).toList = name.toList ++ '.' :: parent.toList := by
    simp [String.toList_append]
  have hn : (name.toList ++ '.' :: parent.toList).length - (parent.toList.length + 1) =
      name.toList.length := by
    simp
  simp only [h, hn, List.drop_left, List.take_left, decide_true, Bool.true_and]

theorem subAccount_inj {n1 n2 parent : AccountId} (h : subAccount n1 parent = subAccount n2 parent) :
    n1 = n2 := by
  have h1 : (n1 ++ "." ++ parent).toList = (n2 ++ "." ++ parent).toList := by
    unfold subAccount at h; rw [h]
  simp only [String.toList_append, List.append_assoc] at h1
  exact String.toList_inj.mp (List.append_cancel_right h1)

end Verif.Factory
