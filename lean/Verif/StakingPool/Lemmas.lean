import Verif.StakingPool.World
import Verif.StakingPool.Arith

/-! # Helper lemmas: what a successful internal operation did -/

namespace Verif.StakingPool

open Verif

/-- Sum of the shares of all accounts. -/
def sumShares (s : Pool) : Nat := s.accounts.sum (fun _ a => a.stakeShares)
/-- Sum of the unstaked balances of all accounts. -/
def sumUnstaked (s : Pool) : Nat := s.accounts.sum (fun _ a => a.unstaked)

theorem part_shares (s : Pool) (a : AccountId) :
    s.accounts.part (fun _ a => a.stakeShares) a = (getAcc s a).stakeShares := by
  unfold UMap.part getAcc; cases s.accounts.get a <;> rfl

theorem part_unstaked (s : Pool) (a : AccountId) :
    s.accounts.part (fun _ a => a.unstaked) a = (getAcc s a).unstaked := by
  unfold UMap.part getAcc; cases s.accounts.get a <;> rfl

theorem shares_le_sum (s : Pool) (a : AccountId) : (getAcc s a).stakeShares ≤ sumShares s := by
  rw [← part_shares]; exact UMap.part_le_sum _ _ _

theorem unstaked_le_sum (s : Pool) (a : AccountId) : (getAcc s a).unstaked ≤ sumUnstaked s := by
  rw [← part_unstaked]; exact UMap.part_le_sum _ _ _

theorem sumShares_saveAcc (s : Pool) (a : AccountId) (acc : Account) :
    sumShares (saveAcc s a acc) + (getAcc s a).stakeShares = sumShares s + acc.stakeShares := by
  unfold sumShares saveAcc saveMap
  rw [← part_shares]
  simp only
  split
  · exact UMap.sum_insert _ _ _ _
  · rename_i h
    have := UMap.sum_remove s.accounts a (fun _ a => a.stakeShares)
    omega

theorem sumUnstaked_saveAcc (s : Pool) (a : AccountId) (acc : Account) :
    sumUnstaked (saveAcc s a acc) + (getAcc s a).unstaked = sumUnstaked s + acc.unstaked := by
  unfold sumUnstaked saveAcc saveMap
  rw [← part_unstaked]
  simp only
  split
  · exact UMap.sum_insert _ _ _ _
  · rename_i h
    have := UMap.sum_remove s.accounts a (fun _ a => a.unstaked)
    omega

/-- The record visible after saving: empty records are deleted, i.e. read back as default. -/
def norm (acc : Account) : Account :=
  if acc.unstaked > 0 ∨ acc.stakeShares > 0 then acc else Account.default

theorem getAcc_saveAcc (s : Pool) (a b : AccountId) (acc : Account) :
    getAcc (saveAcc s a acc) b = if a = b then norm acc else getAcc s b := by
  unfold getAcc saveAcc saveMap norm
  by_cases hab : a = b
  · subst hab
    split <;> simp
  · split <;> simp [hab, UMap.get_insert, UMap.get_remove]

@[simp] theorem norm_unstaked (acc : Account) : (norm acc).unstaked = acc.unstaked := by
  unfold norm; split
  · rfl
  · simp only [Account.default]; omega

@[simp] theorem norm_shares (acc : Account) : (norm acc).stakeShares = acc.stakeShares := by
  unfold norm; split
  · rfl
  · simp only [Account.default]; omega

theorem norm_epoch_le (acc : Account) :
    (norm acc).unstakedAvailableEpoch ≤ acc.unstakedAvailableEpoch := by
  unfold norm; split
  · exact Nat.le_refl _
  · simp [Account.default]

theorem norm_epoch (acc : Account) (h : acc.unstaked > 0 ∨ acc.stakeShares > 0) :
    (norm acc).unstakedAvailableEpoch = acc.unstakedAvailableEpoch := by
  unfold norm; rw [if_pos h]

section fields
variable (s : Pool) (a : AccountId) (acc : Account)
@[simp] theorem saveAcc_ownerId : (saveAcc s a acc).ownerId = s.ownerId := rfl
@[simp] theorem saveAcc_key : (saveAcc s a acc).stakePublicKey = s.stakePublicKey := rfl
@[simp] theorem saveAcc_lastEpoch : (saveAcc s a acc).lastEpochHeight = s.lastEpochHeight := rfl
@[simp] theorem saveAcc_lastTotal : (saveAcc s a acc).lastTotalBalance = s.lastTotalBalance := rfl
@[simp] theorem saveAcc_shares : (saveAcc s a acc).totalStakeShares = s.totalStakeShares := rfl
@[simp] theorem saveAcc_staked : (saveAcc s a acc).totalStakedBalance = s.totalStakedBalance := rfl
@[simp] theorem saveAcc_fee : (saveAcc s a acc).rewardFee = s.rewardFee := rfl
@[simp] theorem saveAcc_paused : (saveAcc s a acc).paused = s.paused := rfl
end fields

/-! ## Inversion of the conversions -/

theorem numSharesDown_ok {s : Pool} {a n : Nat} :
    numSharesDown s a = .ok n ↔
      0 < s.totalStakedBalance ∧ s.totalStakeShares * a < two256 ∧
      n = s.totalStakeShares * a / s.totalStakedBalance ∧ n < two128 := by
  simp only [numSharesDown, bind_ok, require_ok, mulU256_ok, divU_ok, asU128_ok, gt_iff_lt]
  constructor
  · rintro ⟨_, h1, _, ⟨h2, rfl⟩, _, ⟨_, rfl⟩, h4, rfl⟩; exact ⟨h1, h2, rfl, h4⟩
  · rintro ⟨h1, h2, rfl, h4⟩
    exact ⟨(), h1, _, ⟨h2, rfl⟩, _, ⟨by omega, rfl⟩, h4, rfl⟩

theorem numSharesUp_ok {s : Pool} {a n : Nat} :
    numSharesUp s a = .ok n ↔
      0 < s.totalStakedBalance ∧
      s.totalStakeShares * a + (s.totalStakedBalance - 1) < two256 ∧
      n = (s.totalStakeShares * a + (s.totalStakedBalance - 1)) / s.totalStakedBalance ∧
      n < two128 := by
  simp only [numSharesUp, bind_ok, require_ok, mulU256_ok, addU256_ok, divU_ok, asU128_ok,
    gt_iff_lt]
  constructor
  · rintro ⟨_, h1, _, ⟨h2, rfl⟩, _, ⟨h5, rfl⟩, _, ⟨_, rfl⟩, h4, rfl⟩; exact ⟨h1, h5, rfl, h4⟩
  · rintro ⟨h1, h2, rfl, h4⟩
    exact ⟨(), h1, _, ⟨by omega, rfl⟩, _, ⟨h2, rfl⟩, _, ⟨by omega, rfl⟩, h4, rfl⟩

theorem stakedAmountDown_ok {s : Pool} {a n : Nat} :
    stakedAmountDown s a = .ok n ↔
      0 < s.totalStakeShares ∧ s.totalStakedBalance * a < two256 ∧
      n = s.totalStakedBalance * a / s.totalStakeShares ∧ n < two128 := by
  simp only [stakedAmountDown, bind_ok, require_ok, mulU256_ok, divU_ok, asU128_ok, gt_iff_lt]
  constructor
  · rintro ⟨_, h1, _, ⟨h2, rfl⟩, _, ⟨_, rfl⟩, h4, rfl⟩; exact ⟨h1, h2, rfl, h4⟩
  · rintro ⟨h1, h2, rfl, h4⟩
    exact ⟨(), h1, _, ⟨h2, rfl⟩, _, ⟨by omega, rfl⟩, h4, rfl⟩

theorem stakedAmountUp_ok {s : Pool} {a n : Nat} :
    stakedAmountUp s a = .ok n ↔
      0 < s.totalStakeShares ∧
      s.totalStakedBalance * a + (s.totalStakeShares - 1) < two256 ∧
      n = (s.totalStakedBalance * a + (s.totalStakeShares - 1)) / s.totalStakeShares ∧
      n < two128 := by
  simp only [stakedAmountUp, bind_ok, require_ok, mulU256_ok, addU256_ok, divU_ok, asU128_ok,
    gt_iff_lt]
  constructor
  · rintro ⟨_, h1, _, ⟨h2, rfl⟩, _, ⟨h5, rfl⟩, _, ⟨_, rfl⟩, h4, rfl⟩; exact ⟨h1, h5, rfl, h4⟩
  · rintro ⟨h1, h2, rfl, h4⟩
    exact ⟨(), h1, _, ⟨by omega, rfl⟩, _, ⟨h2, rfl⟩, _, ⟨by omega, rfl⟩, h4, rfl⟩

theorem multiply_ok {f : Fee} {v n : Nat} :
    f.multiply v = .ok n ↔
      f.numerator * v < two256 ∧ f.denominator ≠ 0 ∧ n = f.numerator * v / f.denominator ∧
      n < two128 := by
  simp only [Fee.multiply, bind_ok, mulU256_ok, divU_ok, asU128_ok]
  constructor
  · rintro ⟨_, ⟨h1, rfl⟩, _, ⟨h2, rfl⟩, h3, rfl⟩; exact ⟨h1, h2, rfl, h3⟩
  · rintro ⟨h1, h2, rfl, h3⟩; exact ⟨_, ⟨h1, rfl⟩, _, ⟨h2, rfl⟩, h3, rfl⟩

/-! ## Inversion of the operations -/

theorem internalDeposit_ok {e : Env} {s s' : Pool} {x : Nat} :
    internalDeposit e s = .ok (s', x) ↔
      (getAcc s e.predecessor).unstaked + e.attachedDeposit < two128 ∧
      s.lastTotalBalance + e.attachedDeposit < two128 ∧
      x = e.attachedDeposit ∧
      s' = { saveAcc s e.predecessor
               { getAcc s e.predecessor with
                 unstaked := (getAcc s e.predecessor).unstaked + e.attachedDeposit } with
             lastTotalBalance := s.lastTotalBalance + e.attachedDeposit } := by
  simp only [internalDeposit, bind_ok, addU128_ok, pure_ok, saveAcc_lastTotal, Prod.mk.injEq]
  constructor
  · rintro ⟨_, ⟨h1, rfl⟩, _, ⟨h2, rfl⟩, rfl, rfl⟩; exact ⟨h1, h2, rfl, rfl⟩
  · rintro ⟨h1, h2, rfl, rfl⟩; exact ⟨_, ⟨h1, rfl⟩, _, ⟨h2, rfl⟩, rfl, rfl⟩

theorem internalWithdraw_ok {e : Env} {s s' : Pool} {x : Nat} {effs : List Eff} :
    internalWithdraw e s x = .ok (s', effs) ↔
      0 < x ∧ x ≤ (getAcc s e.predecessor).unstaked ∧
      (getAcc s e.predecessor).unstakedAvailableEpoch ≤ e.epochHeight ∧
      x ≤ e.accountBalance ∧ x ≤ s.lastTotalBalance ∧
      effs = [.transfer e.predecessor x] ∧
      s' = { saveAcc s e.predecessor
               { getAcc s e.predecessor with
                 unstaked := (getAcc s e.predecessor).unstaked - x } with
             lastTotalBalance := s.lastTotalBalance - x } := by
  simp only [internalWithdraw, bind_ok, require_ok, subU_ok, pure_ok, saveAcc_lastTotal,
    Prod.mk.injEq, gt_iff_lt, ge_iff_le]
  constructor
  · rintro ⟨_, h1, _, h2, _, h3, _, ⟨_, rfl⟩, _, h4, _, ⟨h5, rfl⟩, rfl, rfl⟩
    exact ⟨h1, h2, h3, h4, h5, rfl, rfl⟩
  · rintro ⟨h1, h2, h3, h4, h5, rfl, rfl⟩
    exact ⟨(), h1, (), h2, (), h3, _, ⟨h2, rfl⟩, (), h4, _, ⟨h5, rfl⟩, rfl, rfl⟩

theorem internalStake_ok {e : Env} {s s' : Pool} {x : Nat} :
    internalStake e s x = .ok s' ↔
      ∃ n c up,
        0 < x ∧ numSharesDown s x = .ok n ∧ 0 < n ∧ stakedAmountDown s n = .ok c ∧ 0 < c ∧
        c ≤ (getAcc s e.predecessor).unstaked ∧
        (getAcc s e.predecessor).stakeShares + n < two128 ∧
        stakedAmountUp s n = .ok up ∧
        s.totalStakedBalance + up < two128 ∧ s.totalStakeShares + n < two128 ∧
        s' = { saveAcc s e.predecessor
                 { getAcc s e.predecessor with
                   unstaked := (getAcc s e.predecessor).unstaked - c,
                   stakeShares := (getAcc s e.predecessor).stakeShares + n } with
               totalStakedBalance := s.totalStakedBalance + up,
               totalStakeShares := s.totalStakeShares + n } := by
  have hup : ∀ acc n, stakedAmountUp (saveAcc s e.predecessor acc) n = stakedAmountUp s n := by
    intro acc n; rfl
  simp only [internalStake, bind_ok, require_ok, subU_ok, addU128_ok, pure_ok, saveAcc_staked,
    saveAcc_shares, gt_iff_lt, ge_iff_le, hup]
  constructor
  · rintro ⟨_, h1, n, h2, _, h3, c, h4, _, h5, _, h6, _, ⟨_, rfl⟩, _, ⟨h7, rfl⟩, up, h8, _,
      ⟨h9, rfl⟩, _, ⟨h10, rfl⟩, rfl⟩
    exact ⟨n, c, up, h1, h2, h3, h4, h5, h6, h7, h8, h9, h10, rfl⟩
  · rintro ⟨n, c, up, h1, h2, h3, h4, h5, h6, h7, h8, h9, h10, rfl⟩
    exact ⟨(), h1, n, h2, (), h3, c, h4, (), h5, (), h6, _, ⟨h6, rfl⟩, _, ⟨h7, rfl⟩, up, h8, _,
      ⟨h9, rfl⟩, _, ⟨h10, rfl⟩, rfl⟩

theorem innerUnstake_ok {e : Env} {s s' : Pool} {x : Nat} :
    innerUnstake e s x = .ok s' ↔
      ∃ n rcv dn,
        0 < x ∧ 0 < s.totalStakedBalance ∧ numSharesUp s x = .ok n ∧ 0 < n ∧
        n ≤ (getAcc s e.predecessor).stakeShares ∧
        stakedAmountUp s n = .ok rcv ∧ 0 < rcv ∧
        (getAcc s e.predecessor).unstaked + rcv < two128 ∧
        e.epochHeight + numEpochsToUnlock < two64 ∧
        stakedAmountDown s n = .ok dn ∧ dn ≤ s.totalStakedBalance ∧ n ≤ s.totalStakeShares ∧
        s' = { saveAcc s e.predecessor
                 { unstaked := (getAcc s e.predecessor).unstaked + rcv,
                   stakeShares := (getAcc s e.predecessor).stakeShares - n,
                   unstakedAvailableEpoch := e.epochHeight + numEpochsToUnlock } with
               totalStakedBalance := s.totalStakedBalance - dn,
               totalStakeShares := s.totalStakeShares - n } := by
  have hdn : ∀ acc n, stakedAmountDown (saveAcc s e.predecessor acc) n = stakedAmountDown s n := by
    intro acc n; rfl
  simp only [innerUnstake, bind_ok, require_ok, subU_ok, addU128_ok, addU64_ok, pure_ok,
    saveAcc_staked, saveAcc_shares, gt_iff_lt, ge_iff_le, hdn]
  constructor
  · rintro ⟨_, h1, _, h2, n, h3, _, h4, _, h5, rcv, h6, _, h7, _, ⟨_, rfl⟩, _, ⟨h8, rfl⟩, _,
      ⟨h9, rfl⟩, dn, h10, _, ⟨h11, rfl⟩, _, ⟨h12, rfl⟩, rfl⟩
    exact ⟨n, rcv, dn, h1, h2, h3, h4, h5, h6, h7, h8, h9, h10, h11, h12, rfl⟩
  · rintro ⟨n, rcv, dn, h1, h2, h3, h4, h5, h6, h7, h8, h9, h10, h11, h12, rfl⟩
    exact ⟨(), h1, (), h2, n, h3, (), h4, (), h5, rcv, h6, (), h7, _, ⟨h5, rfl⟩, _, ⟨h8, rfl⟩, _,
      ⟨h9, rfl⟩, dn, h10, _, ⟨h11, rfl⟩, _, ⟨h12, rfl⟩, rfl⟩

/-- The pool after a reward has been distributed, in closed form. -/
def distributed (s : Pool) (fee n reward : Nat) : Pool :=
  { s with
    accounts :=
      if n > 0 then
        saveMap s.accounts s.ownerId
          { getAcc s s.ownerId with stakeShares := (getAcc s s.ownerId).stakeShares + n }
      else s.accounts
    totalStakeShares := s.totalStakeShares + n
    totalStakedBalance := s.totalStakedBalance + (reward - fee) + fee }

theorem mintOwner_ok {s s' : Pool} {n : Nat} :
    mintOwner s n = .ok s' ↔
      (n = 0 ∧ s' = s) ∨
      (0 < n ∧ (getAcc s s.ownerId).stakeShares + n < two128 ∧ s.totalStakeShares + n < two128 ∧
        s' = { saveAcc s s.ownerId
                { getAcc s s.ownerId with stakeShares := (getAcc s s.ownerId).stakeShares + n } with
               totalStakeShares := s.totalStakeShares + n }) := by
  unfold mintOwner
  by_cases hn : n > 0
  · simp only [if_pos hn, bind_ok, addU128_ok, pure_ok, saveAcc_shares]
    constructor
    · rintro ⟨_, ⟨h7, rfl⟩, _, ⟨h8, rfl⟩, rfl⟩
      exact .inr ⟨hn, h7, h8, rfl⟩
    · rintro (⟨h, _⟩ | ⟨_, h7, h8, rfl⟩)
      · omega
      · exact ⟨_, ⟨h7, rfl⟩, _, ⟨h8, rfl⟩, rfl⟩
  · simp only [if_neg hn, pure_ok]
    constructor
    · rintro rfl; exact .inl ⟨by omega, rfl⟩
    · rintro (⟨_, h⟩ | ⟨h, _⟩)
      · exact h.symm
      · omega

theorem distribute_ok {s s' : Pool} {r : Nat} :
    distribute s r = .ok s' ↔
      ∃ fee n, s.rewardFee.multiply r = .ok fee ∧ fee ≤ r ∧
        s.totalStakedBalance + (r - fee) + fee < two128 ∧
        numSharesDown { s with totalStakedBalance := s.totalStakedBalance + (r - fee) } fee = .ok n ∧
        (0 < n → (getAcc s s.ownerId).stakeShares + n < two128 ∧
                 s.totalStakeShares + n < two128) ∧
        s' = distributed s fee n r := by
  simp only [distribute, bind_ok, subU_ok, addU128_ok, pure_ok, mintOwner_ok]
  constructor
  · rintro ⟨fee, h1, _, ⟨h2, rfl⟩, _, ⟨h3, rfl⟩, n, h4, s2, h5, _, ⟨h6, rfl⟩, rfl⟩
    rcases h5 with ⟨rfl, rfl⟩ | ⟨hn, h7, h8, rfl⟩
    · exact ⟨fee, 0, h1, h2, h6, h4, fun h => absurd h (by omega), by simp [distributed]⟩
    · exact ⟨fee, n, h1, h2, h6, h4, fun _ => ⟨h7, h8⟩, by simp [distributed, hn, saveAcc, getAcc]⟩
  · rintro ⟨fee, n, h1, h2, h3, h4, h5, rfl⟩
    refine ⟨fee, h1, _, ⟨h2, rfl⟩, _, ⟨by omega, rfl⟩, n, h4, ?_⟩
    by_cases hn : 0 < n
    · obtain ⟨h7, h8⟩ := h5 hn
      refine ⟨_, .inr ⟨hn, h7, h8, rfl⟩, _, ⟨?_, rfl⟩, ?_⟩
      · simpa using h3
      · simp [distributed, hn, saveAcc, getAcc]
    · have hn0 : n = 0 := by omega
      subst hn0
      exact ⟨_, .inl ⟨rfl, rfl⟩, _, ⟨h3, rfl⟩, by simp [distributed]⟩

/-- Everything a successful `internal_ping` in a new epoch did. -/
theorem internalPing_ok {e : Env} {s s' : Pool} {b : Bool} :
    internalPing e s = .ok (s', b) ↔
      (s.lastEpochHeight = e.epochHeight ∧ s' = s ∧ b = false) ∨
      (s.lastEpochHeight ≠ e.epochHeight ∧ b = true ∧
        e.accountLockedBalance + e.accountBalance < two128 ∧
        e.attachedDeposit ≤ e.accountLockedBalance + e.accountBalance ∧
        s.lastTotalBalance ≤ e.accountLockedBalance + e.accountBalance - e.attachedDeposit ∧
        ∃ s1,
          distributeIf { s with lastEpochHeight := e.epochHeight }
            (e.accountLockedBalance + e.accountBalance - e.attachedDeposit - s.lastTotalBalance)
            = .ok s1 ∧
          s' = { s1 with
                 lastTotalBalance :=
                   e.accountLockedBalance + e.accountBalance - e.attachedDeposit }) := by
  unfold internalPing
  by_cases h : s.lastEpochHeight = e.epochHeight
  · simp [h, pure_ok]
    exact fun _ => eq_comm
  · simp only [h, if_false, bind_ok, addU128_ok, subU_ok, require_ok, pure_ok, Prod.mk.injEq,
      ge_iff_le, false_and, false_or, ne_eq, not_false_eq_true, true_and]
    constructor
    · rintro ⟨_, ⟨h1, rfl⟩, _, ⟨h2, rfl⟩, _, h3, _, ⟨_, rfl⟩, s1, h5, rfl, rfl⟩
      exact ⟨rfl, h1, h2, h3, s1, h5, rfl⟩
    · rintro ⟨rfl, h1, h2, h3, s1, h5, rfl⟩
      exact ⟨_, ⟨h1, rfl⟩, _, ⟨h2, rfl⟩, (), h3, _, ⟨h3, rfl⟩, s1, h5, rfl, rfl⟩

end Verif.StakingPool
