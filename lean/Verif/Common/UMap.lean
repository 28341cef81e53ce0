import Mathlib.Data.List.Nodup
import Mathlib.Data.List.Perm.Basic
import Mathlib.Algebra.BigOperators.Group.List.Basic
import Mathlib.Tactic.Linarith

/-!
# `near_sdk::collections::UnorderedMap`

near-sdk 2.0/3.1/4.0 stores an `UnorderedMap` as a vector of keys, a vector of values and an index
from key to position. `insert` overwrites in place or pushes at the end; `remove` is `swap_remove`:
the last element moves into the hole. The model is a list of key-value pairs without duplicate keys.
near-sdk is not part of /repo; this is its published behaviour. The order matters for
staking-pool/src/lib.rs:387-393 (`get_accounts`) and multisig (`list_request_ids`).
-/

namespace Verif

/-- Map with insertion order; duplicate-free keys by construction. -/
structure UMap (K V : Type) where
  entries : List (K × V)
  nodup : (entries.map Prod.fst).Nodup

namespace UMap

variable {K V : Type} [DecidableEq K]

/-- `UnorderedMap::new`. -/
def empty : UMap K V := ⟨[], by simp⟩

/-- Lookup in a pair list. -/
def lookup (k : K) : List (K × V) → Option V
  | [] => none
  | (k', v) :: t => if k' = k then some v else lookup k t

/-- Overwrite in place or push at the end. -/
def put (k : K) (v : V) : List (K × V) → List (K × V)
  | [] => [(k, v)]
  | (k', v') :: t => if k' = k then (k, v) :: t else (k', v') :: put k v t

/-- `swap_remove`: the last pair moves into the hole. -/
def swapRemove (k : K) : List (K × V) → List (K × V)
  | [] => []
  | (k', v') :: t =>
    if k' = k then
      match t.getLast? with
      | none => []
      | some l => l :: t.dropLast
    else (k', v') :: swapRemove k t

/-- `UnorderedMap::get`. -/
def get (m : UMap K V) (k : K) : Option V := lookup k m.entries
/-- `UnorderedMap::keys_as_vector`. -/
def keys (m : UMap K V) : List K := m.entries.map Prod.fst
/-- `UnorderedMap::len`. -/
def len (m : UMap K V) : Nat := m.entries.length
/-- Membership test. -/
def contains (m : UMap K V) (k : K) : Bool := (m.get k).isSome

/-! ### list level lemmas -/

theorem lookup_eq_none {k : K} {l : List (K × V)} :
    lookup k l = none ↔ k ∉ l.map Prod.fst := by
  induction l with
  | nil => simp [lookup]
  | cons h t ih =>
    obtain ⟨k', v⟩ := h
    simp only [lookup, List.map_cons, List.mem_cons, not_or]
    split
    · simp_all
    · rename_i hne
      rw [ih]
      constructor
      · intro h; exact ⟨fun e => hne e.symm, h⟩
      · exact fun h => h.2

theorem lookup_eq_some {k : K} {v : V} {l : List (K × V)} (nd : (l.map Prod.fst).Nodup) :
    lookup k l = some v ↔ (k, v) ∈ l := by
  induction l with
  | nil => simp [lookup]
  | cons h t ih =>
    obtain ⟨k', v'⟩ := h
    simp only [List.map_cons, List.nodup_cons] at nd
    simp only [lookup, List.mem_cons, Prod.mk.injEq]
    split
    · rename_i he
      subst he
      constructor
      · intro h; simp at h; exact .inl ⟨rfl, h.symm⟩
      · rintro (h | h)
        · rw [h.2]
        · exact absurd (List.mem_map_of_mem (f := Prod.fst) h) nd.1
    · rename_i hne
      rw [ih nd.2]
      constructor
      · exact .inr
      · rintro (h | h)
        · exact absurd h.1.symm hne
        · exact h

theorem keys_put (k : K) (v : V) (l : List (K × V)) :
    (put k v l).map Prod.fst =
      if k ∈ l.map Prod.fst then l.map Prod.fst else l.map Prod.fst ++ [k] := by
  induction l with
  | nil => simp [put]
  | cons h t ih =>
    obtain ⟨k', v'⟩ := h
    simp only [put]
    split
    · rename_i he; subst he; simp
    · rename_i hne
      have hne' : ¬ k = k' := fun e => hne e.symm
      simp only [List.map_cons, ih, List.mem_cons, hne', false_or]
      split <;> simp

theorem put_nodup {k : K} {v : V} {l : List (K × V)} (nd : (l.map Prod.fst).Nodup) :
    ((put k v l).map Prod.fst).Nodup := by
  rw [keys_put]
  split
  · exact nd
  · rename_i h
    rw [List.nodup_append]
    refine ⟨nd, by simp, ?_⟩
    intro a ha b hb
    simp at hb
    subst hb
    intro e
    subst e
    exact h ha

theorem swapRemove_perm {k : K} {l : List (K × V)} (nd : (l.map Prod.fst).Nodup) :
    (swapRemove k l).Perm (l.filter (fun p => p.1 ≠ k)) := by
  induction l with
  | nil => simp [swapRemove]
  | cons h t ih =>
    obtain ⟨k', v'⟩ := h
    simp only [List.map_cons, List.nodup_cons] at nd
    simp only [swapRemove]
    split
    · rename_i he
      subst he
      have hf : t.filter (fun p => p.1 ≠ k') = t := by
        rw [List.filter_eq_self]
        intro p hp
        simp only [ne_eq, decide_not, Bool.not_eq_eq_eq_not, Bool.not_true, decide_eq_false_iff_not]
        intro e
        exact nd.1 (e ▸ List.mem_map_of_mem (f := Prod.fst) hp)
      rw [List.filter_cons_of_neg (by simp), hf]
      cases hl : t.getLast? with
      | none => rw [List.getLast?_eq_none_iff] at hl; subst hl; simp
      | some l =>
        have hne : t ≠ [] := by intro e; subst e; simp at hl
        have hl' : t.getLast hne = l := by
          rw [List.getLast?_eq_some_getLast hne] at hl; simpa using hl
        have hd : t.dropLast ++ [l] = t := by rw [← hl']; exact List.dropLast_append_getLast hne
        simp only
        calc (l :: t.dropLast).Perm (t.dropLast ++ [l]) := (List.perm_append_singleton _ _).symm
          _ = t := hd
    · rename_i hne
      rw [List.filter_cons_of_pos (by simpa using hne)]
      exact (ih nd.2).cons _

theorem swapRemove_nodup {k : K} {l : List (K × V)} (nd : (l.map Prod.fst).Nodup) :
    ((swapRemove k l).map Prod.fst).Nodup := by
  have h := (swapRemove_perm (k := k) nd).map Prod.fst
  rw [h.nodup_iff]
  exact nd.sublist (List.Sublist.map _ List.filter_sublist)

/-- `UnorderedMap::insert`. -/
def insert (m : UMap K V) (k : K) (v : V) : UMap K V := ⟨put k v m.entries, put_nodup m.nodup⟩
/-- `UnorderedMap::remove`. -/
def remove (m : UMap K V) (k : K) : UMap K V := ⟨swapRemove k m.entries, swapRemove_nodup m.nodup⟩

/-! ### map level lemmas -/

omit [DecidableEq K] in
@[ext] theorem ext {m n : UMap K V} (h : m.entries = n.entries) : m = n := by
  cases m; cases n; simp_all

theorem get_eq_some {m : UMap K V} {k : K} {v : V} : m.get k = some v ↔ (k, v) ∈ m.entries :=
  lookup_eq_some m.nodup

theorem get_eq_none {m : UMap K V} {k : K} : m.get k = none ↔ k ∉ m.keys := lookup_eq_none

theorem mem_keys {m : UMap K V} {k : K} : k ∈ m.keys ↔ ∃ v, m.get k = some v := by
  constructor
  · intro h
    cases hg : m.get k with
    | none => exact absurd h (get_eq_none.mp hg)
    | some v => exact ⟨v, rfl⟩
  · rintro ⟨v, hv⟩
    exact List.mem_map_of_mem (f := Prod.fst) (get_eq_some.mp hv)

omit [DecidableEq K] in
theorem keys_nodup (m : UMap K V) : m.keys.Nodup := m.nodup

@[simp] theorem get_empty (k : K) : (empty : UMap K V).get k = none := rfl

theorem lookup_put (k k' : K) (v : V) (l : List (K × V)) :
    lookup k' (put k v l) = if k = k' then some v else lookup k' l := by
  induction l with
  | nil => simp [put, lookup]
  | cons h t ih =>
    obtain ⟨k1, v1⟩ := h
    simp only [put]
    split
    · rename_i he; subst he; simp only [lookup]; split <;> rfl
    · rename_i hne
      simp only [lookup, ih]
      split
      · rename_i he; subst he
        rw [if_neg]; intro e; exact hne e.symm
      · rfl

theorem get_insert (m : UMap K V) (k k' : K) (v : V) :
    (m.insert k v).get k' = if k = k' then some v else m.get k' := lookup_put k k' v m.entries

@[simp] theorem get_insert_self (m : UMap K V) (k : K) (v : V) : (m.insert k v).get k = some v := by
  simp [get_insert]

theorem get_insert_ne {m : UMap K V} {k k' : K} {v : V} (h : k ≠ k') :
    (m.insert k v).get k' = m.get k' := by simp [get_insert, h]

theorem get_remove (m : UMap K V) (k k' : K) :
    (m.remove k).get k' = if k = k' then none else m.get k' := by
  have hp := swapRemove_perm (k := k) m.nodup
  split
  · rename_i h; subst h
    rw [get_eq_none]
    intro hmem
    have : k ∈ (m.entries.filter (fun p => p.1 ≠ k)).map Prod.fst := ((hp.map Prod.fst).mem_iff).mp hmem
    simp at this
  · rename_i h
    cases hg : m.get k' with
    | none =>
      rw [get_eq_none] at hg ⊢
      intro hmem
      have : k' ∈ (m.entries.filter (fun p => p.1 ≠ k)).map Prod.fst := ((hp.map Prod.fst).mem_iff).mp hmem
      rw [List.mem_map] at this
      obtain ⟨p, hp1, hp2⟩ := this
      exact hg (hp2 ▸ List.mem_map_of_mem (f := Prod.fst) (List.mem_filter.mp hp1).1)
    | some v =>
      rw [get_eq_some] at hg ⊢
      refine hp.mem_iff.mpr ?_
      rw [List.mem_filter]
      refine ⟨hg, ?_⟩
      simp only [ne_eq, decide_not, Bool.not_eq_eq_eq_not, Bool.not_true, decide_eq_false_iff_not]
      exact fun e => h e.symm

@[simp] theorem get_remove_self (m : UMap K V) (k : K) : (m.remove k).get k = none := by
  simp [get_remove]

theorem get_remove_ne {m : UMap K V} {k k' : K} (h : k ≠ k') :
    (m.remove k).get k' = m.get k' := by simp [get_remove, h]

theorem mem_keys_insert {m : UMap K V} {k k' : K} {v : V} :
    k' ∈ (m.insert k v).keys ↔ k' = k ∨ k' ∈ m.keys := by
  rw [mem_keys, mem_keys]
  by_cases h : k = k'
  · subst h; simp
  · simp [get_insert, h, Ne.symm h]

theorem mem_keys_remove {m : UMap K V} {k k' : K} :
    k' ∈ (m.remove k).keys ↔ k' ≠ k ∧ k' ∈ m.keys := by
  rw [mem_keys, mem_keys]
  by_cases h : k = k'
  · subst h; simp
  · simp [get_remove, h, Ne.symm h]

/-! ### sums over a map -/

/-- Sum of `f key value` over all entries. -/
def sum (m : UMap K V) (f : K → V → Nat) : Nat := (m.entries.map (fun p => f p.1 p.2)).sum

/-- The contribution of one key to `sum`. -/
def part (m : UMap K V) (f : K → V → Nat) (k : K) : Nat :=
  match m.get k with
  | none => 0
  | some v => f k v

omit [DecidableEq K] in
@[simp] theorem sum_empty (f : K → V → Nat) : (empty : UMap K V).sum f = 0 := rfl

theorem sum_put (k : K) (v : V) (f : K → V → Nat) (l : List (K × V)) (nd : (l.map Prod.fst).Nodup) :
    ((put k v l).map (fun p => f p.1 p.2)).sum + (match lookup k l with | none => 0 | some v => f k v)
      = (l.map (fun p => f p.1 p.2)).sum + f k v := by
  induction l with
  | nil => simp [put, lookup]
  | cons h t ih =>
    obtain ⟨k1, v1⟩ := h
    simp only [List.map_cons, List.nodup_cons] at nd
    simp only [put, lookup]
    by_cases he : k1 = k
    · subst he
      rw [if_pos rfl, if_pos rfl]
      simp only [List.map_cons, List.sum_cons]
      omega
    · rw [if_neg he, if_neg he]
      have := ih nd.2
      simp only [List.map_cons, List.sum_cons]
      omega

theorem sum_insert (m : UMap K V) (k : K) (v : V) (f : K → V → Nat) :
    (m.insert k v).sum f + m.part f k = m.sum f + f k v := sum_put k v f m.entries m.nodup

theorem sum_filter (k : K) (f : K → V → Nat) (l : List (K × V)) (nd : (l.map Prod.fst).Nodup) :
    ((l.filter (fun p => p.1 ≠ k)).map (fun p => f p.1 p.2)).sum
      + (match lookup k l with | none => 0 | some v => f k v)
      = (l.map (fun p => f p.1 p.2)).sum := by
  induction l with
  | nil => simp [lookup]
  | cons h t ih =>
    obtain ⟨k1, v1⟩ := h
    simp only [List.map_cons, List.nodup_cons] at nd
    have ih := ih nd.2
    simp only [lookup]
    by_cases he : k1 = k
    · subst he
      rw [if_pos rfl]
      rw [List.filter_cons_of_neg (by simp)]
      have hn : lookup k1 t = none := lookup_eq_none.mpr nd.1
      simp only [hn] at ih
      simp only [List.map_cons, List.sum_cons]
      omega
    · rw [if_neg he, List.filter_cons_of_pos (by simpa using he)]
      simp only [List.map_cons, List.sum_cons]
      omega

theorem sum_remove (m : UMap K V) (k : K) (f : K → V → Nat) :
    (m.remove k).sum f + m.part f k = m.sum f := by
  have hp := (swapRemove_perm (k := k) m.nodup).map (fun p => f p.1 p.2)
  have := sum_filter k f m.entries m.nodup
  unfold sum part get remove
  rw [hp.sum_eq]
  exact this

theorem part_le_sum (m : UMap K V) (f : K → V → Nat) (k : K) : m.part f k ≤ m.sum f := by
  have := sum_remove m k f
  omega

theorem part_add_part_le_sum (m : UMap K V) (f : K → V → Nat) {k k' : K} (h : k ≠ k') :
    m.part f k + m.part f k' ≤ m.sum f := by
  have h1 := sum_remove m k f
  have h2 := part_le_sum (m.remove k) f k'
  have h3 : (m.remove k).part f k' = m.part f k' := by unfold part; rw [get_remove_ne h]
  omega

omit [DecidableEq K] in
theorem sum_le_sum {m : UMap K V} {f g : K → V → Nat} (h : ∀ k v, (k, v) ∈ m.entries → f k v ≤ g k v) :
    m.sum f ≤ m.sum g := by
  unfold sum
  obtain ⟨l, nd⟩ := m
  simp only at *
  clear nd
  induction l with
  | nil => simp
  | cons p t ih =>
    simp only [List.map_cons, List.sum_cons]
    have h1 := h p.1 p.2 (by simp)
    have h2 := ih (fun k v hm => h k v (by simp [hm]))
    omega

omit [DecidableEq K] in
theorem sum_add (m : UMap K V) (f g : K → V → Nat) :
    m.sum (fun k v => f k v + g k v) = m.sum f + m.sum g := by
  unfold sum
  obtain ⟨l, nd⟩ := m
  simp only
  clear nd
  induction l with
  | nil => simp
  | cons p t ih => simp only [List.map_cons, List.sum_cons, ih]; omega

omit [DecidableEq K] in
theorem len_eq_keys (m : UMap K V) : m.len = m.keys.length := by simp [len, keys]

end UMap
end Verif
