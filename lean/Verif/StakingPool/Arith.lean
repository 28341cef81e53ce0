import Mathlib.Tactic.Ring
import Mathlib.Tactic.Linarith
import Mathlib.Algebra.Order.Ring.Nat

/-!
# Rounding arithmetic of share conversions (pure number theory, no model)

`T` total staked balance, `S` total shares, `n` shares. `T * n / S` is the rounded-down amount,
`(T * n + (S - 1)) / S` the rounded-up amount.
-/

namespace Verif.StakingPool.Arith

theorem down_mul_le (T S n : Nat) : T * n / S * S ≤ T * n := Nat.div_mul_le_self _ _

theorem up_mul_ge {T S n : Nat} (hS : 0 < S) : T * n ≤ (T * n + (S - 1)) / S * S := by
  have h := Nat.div_add_mod (T * n + (S - 1)) S
  have hm := Nat.mod_lt (T * n + (S - 1)) hS
  rw [Nat.mul_comm] at h
  omega

theorem le_up {T S n : Nat} : T * n / S ≤ (T * n + (S - 1)) / S :=
  Nat.div_le_div_right (Nat.le_add_right _ _)

theorem up_le_succ {T S n : Nat} (hS : 0 < S) : (T * n + (S - 1)) / S ≤ T * n / S + 1 := by
  have : (T * n + (S - 1)) / S ≤ (T * n + S) / S := Nat.div_le_div_right (by omega)
  rwa [Nat.add_div_right _ hS] at this

/-- A higher price gives at least the same rounded-down value. -/
theorem view_mono {T S T' S' s : Nat} (hS : 0 < S) (hS' : 0 < S') (hp : T * S' ≤ T' * S) :
    T * s / S ≤ T' * s / S' := by
  rw [Nat.le_div_iff_mul_le hS']
  have h1 := down_mul_le T S s
  have h2 : T * s / S * S' * S ≤ T' * s * S := by
    calc T * s / S * S' * S = (T * s / S * S) * S' := by ring
      _ ≤ T * s * S' := Nat.mul_le_mul_right _ h1
      _ = (T * S') * s := by ring
      _ ≤ (T' * S) * s := Nat.mul_le_mul_right _ hp
      _ = T' * s * S := by ring
  exact Nat.le_of_mul_le_mul_right h2 hS

theorem price_trans {T S T' S' T'' S'' : Nat} (hS' : 0 < S')
    (h1 : T * S' ≤ T' * S) (h2 : T' * S'' ≤ T'' * S') : T * S'' ≤ T'' * S := by
  have : T * S'' * S' ≤ T'' * S * S' := by
    calc T * S'' * S' = (T * S') * S'' := by ring
      _ ≤ (T' * S) * S'' := Nat.mul_le_mul_right _ h1
      _ = (T' * S'') * S := by ring
      _ ≤ (T'' * S') * S := Nat.mul_le_mul_right _ h2
      _ = T'' * S * S' := by ring
  exact Nat.le_of_mul_le_mul_right this hS'

/-- Staking does not lower the price. -/
theorem stake_price {T S n : Nat} (hS : 0 < S) :
    T * (S + n) ≤ (T + (T * n + (S - 1)) / S) * S := by
  have := up_mul_ge (T := T) (n := n) hS
  calc T * (S + n) = T * S + T * n := by ring
    _ ≤ T * S + (T * n + (S - 1)) / S * S := by omega
    _ = _ := by ring

theorem down_le_total {T S n : Nat} (hn : n ≤ S) : T * n / S ≤ T := by
  rcases Nat.eq_zero_or_pos S with h | h
  · subst h; simp
  · calc T * n / S ≤ T * S / S := Nat.div_le_div_right (Nat.mul_le_mul_left _ hn)
      _ = T := Nat.mul_div_cancel _ h

/-- Unstaking does not lower the price. -/
theorem unstake_price (T S n : Nat) :
    T * (S - n) ≤ (T - T * n / S) * S := by
  have h1 := down_mul_le T S n
  rw [Nat.mul_sub, Nat.sub_mul]
  omega

/-- price at least one is inherited by any higher price -/
theorem price_ge_one {T S T' S' : Nat} (hS : 0 < S) (h : S ≤ T) (hp : T * S' ≤ T' * S) :
    S' ≤ T' := by
  have : S' * S ≤ T' * S := by
    calc S' * S = S * S' := by ring
      _ ≤ T * S' := Nat.mul_le_mul_right _ h
      _ ≤ _ := hp
  exact Nat.le_of_mul_le_mul_right this hS

/-- Rounding down twice: value of the parts is at most the value of the whole. -/
theorem down_add_le (T S a b : Nat) : T * a / S + T * b / S ≤ T * (a + b) / S := by
  rcases Nat.eq_zero_or_pos S with h | h
  · subst h; simp
  · rw [Nat.le_div_iff_mul_le h, Nat.add_mul, Nat.mul_add]
    exact Nat.add_le_add (down_mul_le _ _ _) (down_mul_le _ _ _)

/-- Value of the whole is at most rounded-down part plus rounded-up part. -/
theorem down_le_down_add_up {T S a b : Nat} (hS : 0 < S) :
    T * (a + b) / S ≤ T * a / S + (T * b + (S - 1)) / S := by
  rw [← Nat.lt_succ_iff, Nat.div_lt_iff_lt_mul hS]
  have h1 := up_mul_ge (T := T) (n := b) hS
  have h2 := Nat.div_add_mod (T * a) S
  have h3 := Nat.mod_lt (T * a) hS
  calc T * (a + b) = T * a + T * b := by ring
    _ < (S * (T * a / S) + S) + T * b := by omega
    _ ≤ (S * (T * a / S) + S) + (T * b + (S - 1)) / S * S := by omega
    _ = (T * a / S + (T * b + (S - 1)) / S).succ * S := by rw [Nat.succ_eq_add_one]; ring

/-- Minting `m` shares for a fee `f` at a price not above the current one and adding `f` to the
total does not lower the price. -/
theorem mint_price {T S m f : Nat} (hm : m * T ≤ S * f) : T * (S + m) ≤ (T + f) * S := by
  calc T * (S + m) = T * S + m * T := by ring
    _ ≤ T * S + S * f := by omega
    _ = (T + f) * S := by ring

/-- The minted shares are worth at most the fee at the final price. -/
theorem mint_worth {T S m f : Nat} (hS : 0 < S) (hm : m * T ≤ S * f) :
    (T + f) * m / (S + m) ≤ f := by
  have h : (T + f) * m ≤ f * (S + m) := by
    calc (T + f) * m = m * T + f * m := by ring
      _ ≤ S * f + f * m := by omega
      _ = f * (S + m) := by ring
  calc (T + f) * m / (S + m) ≤ f * (S + m) / (S + m) := Nat.div_le_div_right h
    _ = f := Nat.mul_div_cancel _ (by omega)

/-- Shares needed to unstake at most the value of `s` shares: at most `s`. -/
theorem up_shares_le {T S a s : Nat} (hT : 0 < T) (h : a ≤ T * s / S) :
    (S * a + (T - 1)) / T ≤ s := by
  rw [← Nat.lt_succ_iff, Nat.div_lt_iff_lt_mul hT]
  have h1 := down_mul_le T S s
  have h2 : S * a ≤ T * s := by
    calc S * a ≤ S * (T * s / S) := Nat.mul_le_mul_left _ h
      _ = T * s / S * S := by ring
      _ ≤ T * s := h1
  calc S * a + (T - 1) ≤ T * s + (T - 1) := by omega
    _ < T * s + T := by omega
    _ = s.succ * T := by rw [Nat.succ_eq_add_one]; ring

/-- Unstaking `a` pays at least `a`. -/
theorem receive_ge {T S a : Nat} (hT : 0 < T) (hS : 0 < S) :
    a ≤ (T * ((S * a + (T - 1)) / T) + (S - 1)) / S := by
  rw [Nat.le_div_iff_mul_le hS]
  have h1 : S * a ≤ (S * a + (T - 1)) / T * T := by
    have h := Nat.div_add_mod (S * a + (T - 1)) T
    have hm := Nat.mod_lt (S * a + (T - 1)) hT
    rw [Nat.mul_comm] at h
    omega
  calc a * S = S * a := by ring
    _ ≤ T * ((S * a + (T - 1)) / T) := by rw [Nat.mul_comm T]; exact h1
    _ ≤ _ := Nat.le_add_right _ _

/-- A positive amount costs a positive number of shares. -/
theorem up_pos {S a T : Nat} (hS : 0 < S) (ha : 0 < a) (hT : 0 < T) :
    0 < (S * a + (T - 1)) / T := by
  apply Nat.div_pos _ hT
  have : 0 < S * a := Nat.mul_pos hS ha
  omega

/-- With price at least one, unstaking the rounded-down value of all `s` shares burns exactly `s`. -/
theorem unstake_all_exact {T S s : Nat} (hS : 0 < S) (hST : S ≤ T) :
    (S * (T * s / S) + (T - 1)) / T = s := by
  have hT : 0 < T := by omega
  apply Nat.le_antisymm (up_shares_le hT (Nat.le_refl _))
  rw [Nat.le_div_iff_mul_le hT]
  have h := Nat.div_add_mod (T * s) S
  have hm := Nat.mod_lt (T * s) hS
  have : s * T = T * s := Nat.mul_comm _ _
  omega

/-- Staking charges at most the requested amount. -/
theorem charge_le {T S a : Nat} : T * (S * a / T) / S ≤ a := by
  rcases Nat.eq_zero_or_pos S with h | h
  · subst h; simp
  · have h1 : S * a / T * T ≤ S * a := Nat.div_mul_le_self _ _
    calc T * (S * a / T) / S ≤ S * a / S := Nat.div_le_div_right (by rw [Nat.mul_comm]; exact h1)
      _ = a := Nat.mul_div_cancel_left _ h

end Verif.StakingPool.Arith
