import Mathlib.Tactic.Ring
import Mathlib.Tactic.NormNum
import Verif.Lockup.World

/-! # Closed forms of the time dependent amounts of the lockup -/

namespace Verif.Lockup

open Verif

/-- The condition that `VestingSchedule::assert_valid` (lockup/src/types.rs:111-124) checks. (No code
in /repo calls it.) -/
structure Schedule.Valid (vs : Schedule) : Prop where
  cliff_ge : vs.start ≤ vs.cliff
  cliff_le : vs.cliff ≤ vs.finish
  pos : vs.start < vs.finish

instance (vs : Schedule) : Decidable vs.Valid :=
  if h : vs.start ≤ vs.cliff ∧ vs.cliff ≤ vs.finish ∧ vs.start < vs.finish then
    .isTrue ⟨h.1, h.2.1, h.2.2⟩
  else .isFalse (fun h' => h ⟨h'.1, h'.2, h'.3⟩)

/-- Closed form of `scheduleUnvested`. -/
def unvestedVal (amount now : Nat) (vs : Schedule) : Nat :=
  if now < vs.cliff then amount
  else if vs.finish ≤ now then 0
  else amount * (vs.finish - now) / (vs.finish - vs.start)

/-- Closed form of `unreleasedAmount`. -/
def unreleasedVal (amount moment now : Nat) : Option Nat → Nat
  | none => 0
  | some release =>
    if satAdd64 moment release ≤ now then 0
    else amount * (satAdd64 moment release - now) / release

theorem two128_pos : 0 < two128 := by unfold two128; norm_num

theorem mul_lt_two256 {a t : Nat} (ha : a < two128) (ht : t < two64) : a * t < two256 := by
  have h1 : a * t ≤ two128 * two64 := Nat.mul_le_mul ha.le ht.le
  have h2 : two128 * two64 < two256 := by unfold two128 two64 two256; norm_num
  omega

theorem mul_div_le_of_le {a t d : Nat} (h : t ≤ d) : a * t / d ≤ a := by
  rcases Nat.eq_zero_or_pos d with rfl | hd
  · simp
  · calc a * t / d ≤ a * d / d := Nat.div_le_div_right (Nat.mul_le_mul_left a h)
      _ = a := Nat.mul_div_cancel a hd

theorem scheduleUnvested_eq {amount now : Nat} {vs : Schedule} (ha : amount < two128)
    (hv : vs.Valid) (hf : vs.finish < two64) :
    scheduleUnvested amount now vs = .ok (unvestedVal amount now vs) := by
  unfold scheduleUnvested unvestedVal
  by_cases h1 : now < vs.cliff
  · rw [if_pos h1, if_pos h1]; rfl
  · rw [if_neg h1, if_neg h1]
    by_cases h2 : vs.finish ≤ now
    · rw [if_pos h2, if_pos h2]; rfl
    · rw [if_neg h2, if_neg h2]
      have hp := hv.pos
      have hc := hv.cliff_ge
      have hle : amount * (vs.finish - now) / (vs.finish - vs.start) ≤ amount :=
        mul_div_le_of_le (by omega)
      simp only [bind_ok, subU_ok, mulU256_ok, divU_ok, asU128_ok]
      exact ⟨_, ⟨by omega, rfl⟩, _, ⟨by omega, rfl⟩, _, ⟨mul_lt_two256 ha (by omega), rfl⟩, _,
        ⟨by omega, rfl⟩, by omega, rfl⟩

theorem unvestedVal_le {amount now : Nat} {vs : Schedule} (hv : vs.Valid) :
    unvestedVal amount now vs ≤ amount := by
  unfold unvestedVal
  have hc := hv.cliff_ge
  split
  · exact le_rfl
  · split
    · omega
    · exact mul_div_le_of_le (by omega)

theorem unvestedVal_mono {amount t1 t2 : Nat} {vs : Schedule} (hv : vs.Valid) (ht : t1 ≤ t2) :
    unvestedVal amount t2 vs ≤ unvestedVal amount t1 vs := by
  by_cases h : t1 < vs.cliff
  · have : unvestedVal amount t1 vs = amount := by unfold unvestedVal; rw [if_pos h]
    rw [this]; exact unvestedVal_le hv
  · have h' : ¬ t2 < vs.cliff := by omega
    unfold unvestedVal
    rw [if_neg h, if_neg h']
    by_cases h2 : vs.finish ≤ t2
    · rw [if_pos h2]; omega
    · rw [if_neg h2, if_neg (by omega)]
      exact Nat.div_le_div_right (Nat.mul_le_mul_left _ (by omega))

theorem satAdd64_lt (a b : Nat) : satAdd64 a b < two64 := by
  unfold satAdd64 two64; omega

theorem satAdd64_le (a b : Nat) : satAdd64 a b ≤ a + b := by unfold satAdd64; omega

theorem unreleasedAmount_eq {amount moment now : Nat} {rel : Option Nat} (ha : amount < two128)
    (hm : moment ≤ now) :
    unreleasedAmount amount moment now rel = .ok (unreleasedVal amount moment now rel) := by
  cases rel with
  | none => rfl
  | some r =>
    simp only [unreleasedAmount, unreleasedVal]
    have hs := satAdd64_le moment r
    have hl := satAdd64_lt moment r
    by_cases h : satAdd64 moment r ≤ now
    · rw [if_pos h, if_pos h]; rfl
    · rw [if_neg h, if_neg h]
      have hle : amount * (satAdd64 moment r - now) / r ≤ amount := mul_div_le_of_le (by omega)
      simp only [bind_ok, subU_ok, mulU256_ok, divU_ok, asU128_ok]
      exact ⟨_, ⟨by omega, rfl⟩, _, ⟨mul_lt_two256 ha (by omega), rfl⟩, _,
        ⟨by omega, rfl⟩, by omega, rfl⟩

theorem unreleasedVal_le {amount moment now : Nat} {rel : Option Nat} (hm : moment ≤ now) :
    unreleasedVal amount moment now rel ≤ amount := by
  cases rel with
  | none => simp [unreleasedVal]
  | some r =>
    simp only [unreleasedVal]
    have hs := satAdd64_le moment r
    split
    · omega
    · exact mul_div_le_of_le (by omega)

theorem unreleasedVal_mono {amount moment t1 t2 : Nat} {rel : Option Nat} (ht : t1 ≤ t2) :
    unreleasedVal amount moment t2 rel ≤ unreleasedVal amount moment t1 rel := by
  cases rel with
  | none => simp [unreleasedVal]
  | some r =>
    simp only [unreleasedVal]
    by_cases h : satAdd64 moment r ≤ t2
    · rw [if_pos h]; omega
    · rw [if_neg h, if_neg (by omega)]
      exact Nat.div_le_div_right (Nat.mul_le_mul_left _ (by omega))

/-- Closed form of `lockedUnvested`. -/
def lockedUnvestedVal (s : Lockup) (now : Nat) : Nat :=
  match s.vesting with
  | .schedule vs => unvestedVal s.info.lockupAmount now vs
  | .terminating u _ => u
  | _ => 0

/-- Closed form of `getLockedAmount`. -/
def lockedVal (s : Lockup) (now : Nat) : Nat :=
  match s.info.transfers with
  | .enabled ts =>
    if lockupMoment s.info ts ≤ now then
      max (unreleasedVal s.info.lockupAmount (lockupMoment s.info ts) now s.info.releaseDuration
            - s.info.terminationWithdrawn)
          (lockedUnvestedVal s now)
    else s.info.lockupAmount - s.info.terminationWithdrawn
  | .disabled _ => s.info.lockupAmount - s.info.terminationWithdrawn

/-- Well-formed contract states: the amounts are consistent and a public schedule is valid. -/
structure WF (s : Lockup) : Prop where
  amt : s.info.lockupAmount < two128
  wle : terminatedUnvested s + s.info.terminationWithdrawn ≤ s.info.lockupAmount
  sched : ∀ vs, s.vesting = .schedule vs →
    vs.Valid ∧ vs.finish < two64 ∧ s.info.terminationWithdrawn = 0
  hash : ∀ h, s.vesting = .hash h → s.info.terminationWithdrawn = 0

theorem lockedUnvested_eq {e : Env} {s : Lockup} (h : WF s) :
    lockedUnvested e s = .ok (lockedUnvestedVal s e.now) := by
  unfold lockedUnvested lockedUnvestedVal
  cases hv : s.vesting with
  | none => rfl
  | hash h => rfl
  | terminating u st => rfl
  | schedule vs =>
    obtain ⟨h1, h2, _⟩ := h.sched vs hv
    simp only [getUnvestedAmount, hv]
    exact scheduleUnvested_eq h.amt h1 h2

theorem lockedUnvestedVal_le {s : Lockup} {now : Nat} (h : WF s) :
    lockedUnvestedVal s now + s.info.terminationWithdrawn ≤ s.info.lockupAmount := by
  have hw := h.wle
  unfold lockedUnvestedVal
  unfold terminatedUnvested at hw
  cases hv : s.vesting with
  | none => simp only [hv] at hw; simpa using hw
  | hash h' => simp only [hv] at hw; simpa using hw
  | terminating u st => simp only [hv] at hw; exact hw
  | schedule vs =>
    obtain ⟨h1, h2, h3⟩ := h.sched vs hv
    have := unvestedVal_le (amount := s.info.lockupAmount) (now := now) h1
    show unvestedVal _ _ _ + _ ≤ _
    omega

theorem lockedUnvestedVal_mono {s : Lockup} {t1 t2 : Nat} (h : WF s) (ht : t1 ≤ t2) :
    lockedUnvestedVal s t2 ≤ lockedUnvestedVal s t1 := by
  unfold lockedUnvestedVal
  cases hv : s.vesting with
  | none => exact le_rfl
  | hash h => exact le_rfl
  | terminating u st => exact le_rfl
  | schedule vs => exact unvestedVal_mono (h.sched vs hv).1 ht

theorem getLockedAmount_eq {e : Env} {s : Lockup} (h : WF s) :
    getLockedAmount e s = .ok (lockedVal s e.now) := by
  have hw := h.wle
  have hsub : subU s.info.lockupAmount s.info.terminationWithdrawn =
      .ok (s.info.lockupAmount - s.info.terminationWithdrawn) := by
    rw [subU_ok]; exact ⟨by omega, rfl⟩
  unfold getLockedAmount lockedVal
  cases ht : s.info.transfers with
  | disabled p => exact hsub
  | enabled ts =>
    simp only
    by_cases hm : lockupMoment s.info ts ≤ e.now
    · rw [if_pos hm, if_pos hm, unreleasedAmount_eq h.amt hm, lockedUnvested_eq h]; rfl
    · rw [if_neg hm, if_neg hm, hsub]

theorem lockedVal_le {s : Lockup} {now : Nat} (h : WF s) :
    lockedVal s now + s.info.terminationWithdrawn ≤ s.info.lockupAmount := by
  have hw := h.wle
  have h1 := lockedUnvestedVal_le (now := now) h
  unfold lockedVal
  cases ht : s.info.transfers with
  | disabled p => simp only; omega
  | enabled ts =>
    simp only
    by_cases hm : lockupMoment s.info ts ≤ now
    · rw [if_pos hm]
      have := unreleasedVal_le (amount := s.info.lockupAmount) (rel := s.info.releaseDuration) hm
      omega
    · rw [if_neg hm]; omega

theorem lockedVal_mono {s : Lockup} {t1 t2 : Nat} (h : WF s) (ht : t1 ≤ t2) :
    lockedVal s t2 ≤ lockedVal s t1 := by
  have hle := lockedVal_le (now := t2) h
  unfold lockedVal at hle ⊢
  cases htr : s.info.transfers with
  | disabled p => exact le_rfl
  | enabled ts =>
    simp only [htr] at hle ⊢
    by_cases hm : lockupMoment s.info ts ≤ t1
    · have hm2 : lockupMoment s.info ts ≤ t2 := by omega
      rw [if_pos hm, if_pos hm2]
      have h1 := unreleasedVal_mono (amount := s.info.lockupAmount)
        (moment := lockupMoment s.info ts) (rel := s.info.releaseDuration) ht
      have h2 := lockedUnvestedVal_mono h ht
      omega
    · rw [if_neg hm]
      omega

end Verif.Lockup
