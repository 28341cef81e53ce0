import Verif.Lockup.Live

/-! # The Borsh encoding of a salted schedule is injective -/

namespace Verif.Lockup

open Verif

theorem leBytes_length (k n : Nat) : (leBytes k n).length = k := by
  induction k generalizing n with
  | zero => rfl
  | succ k ih => simp [leBytes, ih]

theorem leBytes_inj (k : Nat) {n m : Nat} (h1 : n < 256 ^ k) (h2 : m < 256 ^ k)
    (h : leBytes k n = leBytes k m) : n = m := by
  induction k generalizing n m with
  | zero => simp at h1 h2; omega
  | succ k ih =>
    simp only [leBytes, List.cons.injEq] at h
    obtain ⟨g1, g2⟩ := h
    have h3 : n % 256 = m % 256 := by
      have := congrArg UInt8.toNat g1
      simpa using this
    have h4 := ih (n := n / 256) (m := m / 256) (by rw [pow_succ] at h1; omega)
      (by rw [pow_succ] at h2; omega) g2
    omega

theorem two64_eq : (256 : Nat) ^ 8 = two64 := by unfold two64; norm_num

theorem borsh_inj {x y : ScheduleWithSalt}
    (hx : x.schedule.start < two64 ∧ x.schedule.cliff < two64 ∧ x.schedule.finish < two64)
    (hy : y.schedule.start < two64 ∧ y.schedule.cliff < two64 ∧ y.schedule.finish < two64)
    (h : x.borsh = y.borsh) : x = y := by
  unfold ScheduleWithSalt.borsh at h
  obtain ⟨e1, h⟩ := List.append_inj h (by rw [leBytes_length, leBytes_length])
  obtain ⟨e2, h⟩ := List.append_inj h (by rw [leBytes_length, leBytes_length])
  obtain ⟨e3, h⟩ := List.append_inj h (by rw [leBytes_length, leBytes_length])
  obtain ⟨_, e5⟩ := List.append_inj h (by rw [leBytes_length, leBytes_length])
  rw [← two64_eq] at hx hy
  have s1 := leBytes_inj 8 hx.1 hy.1 e1
  have s2 := leBytes_inj 8 hx.2.1 hy.2.1 e2
  have s3 := leBytes_inj 8 hx.2.2 hy.2.2 e3
  obtain ⟨⟨a, b, c⟩, s⟩ := x
  obtain ⟨⟨a', b', c'⟩, s'⟩ := y
  simp only at s1 s2 s3 e5
  subst s1 s2 s3 e5
  rfl

/-- A hash stored at creation stays, unless it is replaced by a termination. -/
theorem hash_step {cfg : Cfg} {w : World} (ev : Ev) :
    (step cfg w ev).c.vesting = w.c.vesting ∨
    (∃ u st, (step cfg w ev).c.vesting = .terminating u st) ∨
    (step cfg w ev).c.vesting = .none := by
  have hcase := step_case cfg w ev
  generalize step cfg w ev = w' at hcase
  cases hcase with
  | quiet ev w' h1 => rw [h1]; exact .inl rfl
  | owner who c c' eff h1 h2 h3 h4 hr => exact .inl (ownerRel_facts hr).1
  | foundation who c c' eff h1 h2 h3 hr => cases hr <;> exact .inr (.inl ⟨_, _, rfl⟩)
  | execNone i ext r hi =>
    simp only [(runExt_facts cfg w ⟨ext, none, .sent⟩ r).1]; exact .inl trivial
  | execSome i ext cb r hi =>
    simp only [(runExt_facts cfg w ⟨ext, some cb, .sent⟩ r).1]; exact .inl trivial
  | callbackOk i ext cb r c' eff hi hr =>
    cases hr <;> first | exact .inl rfl | exact .inr (.inl ⟨_, _, rfl⟩) | exact .inr (.inr rfl)
  | callbackPanic i ext cb r hi => exact .inl rfl

/-- Whenever the vesting is a hash or a schedule, it is the one given to `new`. -/
theorem vesting_origin {cfg : Cfg} {a : NewArgs} {w : World} (h : Reachable cfg a w) :
    w.c.vesting = argVesting a ∨ (∃ u st, w.c.vesting = .terminating u st) ∨
      w.c.vesting = .none := by
  obtain ⟨w0, evs, hs, rfl⟩ := h
  have h0 : w0.c.vesting = argVesting a := argVesting_of_started hs
  have : ∀ (evs : List Ev) (w : World), (w.c.vesting = argVesting a ∨
      (∃ u st, w.c.vesting = .terminating u st) ∨ w.c.vesting = .none) →
      ((run cfg w evs).c.vesting = argVesting a ∨
      (∃ u st, (run cfg w evs).c.vesting = .terminating u st) ∨
      (run cfg w evs).c.vesting = .none) := by
    intro evs
    induction evs with
    | nil => intro w h; exact h
    | cons ev t ih =>
      intro w h
      refine ih _ ?_
      rcases hash_step (cfg := cfg) (w := w) ev with h' | h' | h'
      · rw [h']; exact h
      · exact .inr (.inl h')
      · exact .inr (.inr h')
  exact this evs w0 (.inl h0)

end Verif.Lockup
