import Verif.Lockup.Cases

/-! # Sums over the receipts in flight, and which receipt belongs to which callback -/

namespace Verif.Lockup

open Verif

/-- Sum of `f` over the receipts in flight. -/
def psum (f : Pending → Nat) (l : List Pending) : Nat := (l.map f).sum

@[simp] theorem psum_nil (f : Pending → Nat) : psum f [] = 0 := rfl
@[simp] theorem psum_cons (f : Pending → Nat) (p : Pending) (l : List Pending) :
    psum f (p :: l) = f p + psum f l := by simp [psum]
@[simp] theorem psum_append (f : Pending → Nat) (l1 l2 : List Pending) :
    psum f (l1 ++ l2) = psum f l1 + psum f l2 := by simp [psum]

theorem psum_eraseIdx (f : Pending → Nat) {l : List Pending} {i : Nat} {p : Pending}
    (h : l[i]? = some p) : psum f l = f p + psum f (l.eraseIdx i) := by
  induction l generalizing i with
  | nil => simp at h
  | cons x t ih =>
    cases i with
    | zero => simp at h; subst h; simp
    | succ i =>
      simp at h
      simp only [psum_cons, List.eraseIdx_cons_succ]
      rw [ih h]; omega

theorem psum_set (f : Pending → Nat) {l : List Pending} {i : Nat} {p q : Pending}
    (h : l[i]? = some p) : psum f (l.set i q) + f p = psum f l + f q := by
  induction l generalizing i with
  | nil => simp at h
  | cons x t ih =>
    cases i with
    | zero => simp at h; subst h; simp; omega
    | succ i =>
      simp at h
      simp only [psum_cons, List.set_cons_succ]
      have := ih h; omega

theorem psum_mem_le (f : Pending → Nat) {l : List Pending} {p : Pending} (h : p ∈ l) :
    f p ≤ psum f l := by
  induction l with
  | nil => simp at h
  | cons x t ih =>
    rcases List.mem_cons.mp h with rfl | h
    · simp
    · have := ih h; simp; omega

theorem mem_of_mem_eraseIdx' {l : List Pending} {i : Nat} {q : Pending}
    (h : q ∈ l.eraseIdx i) : q ∈ l := List.mem_of_mem_eraseIdx h

theorem mem_set_cases {l : List Pending} {i : Nat} {p q : Pending} (h : q ∈ l.set i p) :
    q ∈ l ∨ q = p := List.mem_or_eq_of_mem_set h

theorem mem_of_getElem?' {l : List Pending} {i : Nat} {p : Pending} (h : l[i]? = some p) :
    p ∈ l := List.mem_of_getElem? h

/-- Which receipt a callback is attached to. -/
inductive Coh (c : Lockup) : Ext → Option Callback → Prop
  | whitelist (p : AccountId) : Coh c (.isWhitelisted c.whitelist p) (some (.onWhitelist p))
  | poll (p : AccountId) : Coh c (.getResult p) (some .onPollResult)
  | deposit (p : AccountId) (a : Nat) : Coh c (.poolDeposit p a) (some (.onDeposit a))
  | depositAndStake (p : AccountId) (a : Nat) :
      Coh c (.poolDepositAndStake p a) (some (.onDepositAndStake a))
  | withdraw (p : AccountId) (a : Nat) : Coh c (.poolWithdraw p a) (some (.onWithdraw a))
  | stake (p : AccountId) (a : Nat) : Coh c (.poolStake p a) (some (.onStake a))
  | unstake (p : AccountId) (a : Nat) : Coh c (.poolUnstake p a) (some (.onUnstake a))
  | unstakeAll (p : AccountId) : Coh c (.poolUnstakeAll p) (some .onUnstakeAll)
  | total (p : AccountId) : Coh c (.poolTotalBalance p) (some .onTotalBalance)
  | unstaked (p : AccountId) :
      Coh c (.poolUnstakedBalance p) (some .onUnstakedToWithdrawByOwner)
  | tStaked (p : AccountId) : Coh c (.poolStakedBalance p) (some .onStakedToUnstake)
  | tUnstake (p : AccountId) (a : Nat) :
      Coh c (.poolUnstake p a) (some (.onUnstakeForTermination a))
  | tUnstaked (p : AccountId) : Coh c (.poolUnstakedBalance p) (some .onUnstakedToWithdraw)
  | tWithdraw (p : AccountId) (a : Nat) :
      Coh c (.poolWithdraw p a) (some (.onWithdrawForTermination a))
  | pay (r : AccountId) (a : Nat) : Coh c (.transfer r a) (some (.onWithdrawUnvested a r))
  | transfer (r : AccountId) (a : Nat) : Coh c (.transfer r a) none
  | addKey (k : PublicKey) : Coh c (.addFullAccessKey k) none

theorem Coh.congr {c c' : Lockup} {x : Ext} {cb : Option Callback} (h : Coh c x cb)
    (hw : c'.whitelist = c.whitelist) : Coh c' x cb := by
  cases h <;> first | (rw [← hw]; constructor) | constructor

/-- Staking pool operations are the callbacks that need the pool to be busy. -/
def Callback.isOp : Callback → Bool
  | .onWhitelist _ => false
  | .onPollResult => false
  | .onWithdrawUnvested _ _ => false
  | _ => true

/-- The termination status in which a callback of the termination procedure is pending. -/
def Callback.needs : Callback → Option TStatus
  | .onStakedToUnstake => some .unstakingInProgress
  | .onUnstakeForTermination _ => some .unstakingInProgress
  | .onUnstakedToWithdraw => some .withdrawingFromPool
  | .onWithdrawForTermination _ => some .withdrawingFromPool
  | .onWithdrawUnvested _ _ => some .withdrawingFromAccount
  | _ => none

/-- 1 for a pending staking pool operation. -/
def opN (p : Pending) : Nat :=
  match p.cb with
  | some cb => if cb.isOp then 1 else 0
  | none => 0

/-- 1 for a pending payment of unvested tokens. -/
def payN (p : Pending) : Nat :=
  match p.cb with
  | some (.onWithdrawUnvested _ _) => 1
  | _ => 0

/-- Amount of a pending payment of unvested tokens. -/
def payAmt (p : Pending) : Nat :=
  match p.cb with
  | some (.onWithdrawUnvested a _) => a
  | _ => 0

/-- Whether the receipt was executed successfully. -/
def Phase.ok : Phase → Bool
  | .done r => r.isOk
  | .sent => false

/-- Whether the receipt was executed and failed. -/
def Phase.bad : Phase → Bool
  | .done r => !r.isOk
  | .sent => false

/-- Amount of a successfully executed payment whose callback is pending. -/
def paidAmt (p : Pending) : Nat := if p.phase.ok then payAmt p else 0

/-- 1 when a pool operation is marked as running. -/
def busyN (c : Lockup) : Nat :=
  match c.staking with
  | some si => if si.busy then 1 else 0
  | none => 0

end Verif.Lockup
