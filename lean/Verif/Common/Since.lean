import Mathlib.Data.List.Induction

/-!
# "Set and not reset since" for a run of a transition system
-/

namespace Verif

/-- Somewhere in the history an event satisfies `S`, and no later event satisfies `K`. The predicates
see the state before the event. -/
def Since {W E : Type} (step : W → E → W) (w0 : W) (evs : List E) (S K : W → E → Prop) : Prop :=
  ∃ l1 ev l2, evs = l1 ++ ev :: l2 ∧ S (l1.foldl step w0) ev ∧
    ∀ m1 e m2, l2 = m1 ++ e :: m2 → ¬ K ((l1 ++ ev :: m1).foldl step w0) e

theorem since_nil {W E : Type} {step : W → E → W} {w0 : W} {S K : W → E → Prop} :
    ¬ Since step w0 [] S K := by
  rintro ⟨l1, ev, l2, h, _⟩
  simp at h

theorem since_snoc {W E : Type} {step : W → E → W} {w0 : W} {S K : W → E → Prop} {l : List E} {e : E} :
    Since step w0 (l ++ [e]) S K ↔
      S (l.foldl step w0) e ∨ (Since step w0 l S K ∧ ¬ K (l.foldl step w0) e) := by
  constructor
  · rintro ⟨l1, ev, l2, h, hs, hk⟩
    rcases List.eq_nil_or_concat l2 with rfl | ⟨l2', x, rfl⟩
    · have := List.append_inj' h rfl
      simp only [List.cons.injEq, and_true] at this
      obtain ⟨rfl, rfl⟩ := this
      exact .inl hs
    · rw [List.concat_eq_append] at h hk
      have h' : l ++ [e] = (l1 ++ ev :: l2') ++ [x] := by rw [h]; simp
      have := List.append_inj' h' rfl
      simp only [List.cons.injEq, and_true] at this
      obtain ⟨rfl, rfl⟩ := this
      refine .inr ⟨⟨l1, ev, l2', rfl, hs, ?_⟩, hk l2' e [] rfl⟩
      intro m1 y m2 hm
      exact hk m1 y (m2 ++ [e]) (by rw [hm]; simp)
  · rintro (hs | ⟨⟨l1, ev, l2, rfl, hs, hk⟩, hne⟩)
    · exact ⟨l, e, [], rfl, hs, fun m1 y m2 h => by simp at h⟩
    · refine ⟨l1, ev, l2 ++ [e], by simp, hs, ?_⟩
      intro m1 y m2 hm
      rcases List.eq_nil_or_concat m2 with rfl | ⟨m2', x, rfl⟩
      · have := List.append_inj' hm rfl
        simp only [List.cons.injEq, and_true] at this
        obtain ⟨rfl, rfl⟩ := this
        exact hne
      · rw [List.concat_eq_append] at hm
        have h' : l2 ++ [e] = (m1 ++ y :: m2') ++ [x] := by rw [hm]; simp
        have := List.append_inj' h' rfl
        exact hk m1 y m2' this.1

/-- A state property that every step sets, keeps or resets holds after a history exactly when it was set
and not reset since. -/
theorem since_iff {W E : Type} {step : W → E → W} {w0 : W} {S K : W → E → Prop} {P I : W → Prop}
    (hI0 : I w0) (hI : ∀ w e, I w → I (step w e)) (h0 : ¬ P w0)
    (hs : ∀ w e, I w → (P (step w e) ↔ S w e ∨ (P w ∧ ¬ K w e))) (evs : List E) :
    P (evs.foldl step w0) ↔ Since step w0 evs S K := by
  have inv : ∀ l : List E, I (l.foldl step w0) := by
    intro l
    induction l using List.reverseRecOn with
    | nil => exact hI0
    | append_singleton l e ih => rw [List.foldl_append]; exact hI _ _ ih
  induction evs using List.reverseRecOn with
  | nil => exact ⟨fun h => absurd h h0, fun h => absurd h since_nil⟩
  | append_singleton l e ih =>
    rw [List.foldl_append, since_snoc]
    exact (hs _ _ (inv l)).trans (or_congr Iff.rfl (and_congr ih Iff.rfl))

end Verif
