import Verif.Common.UMap

/-!
# The bookkeeping shared by both multisig contracts

Pending requests, their confirmations and the number of pending requests per author, with the four
ways in which both contracts change them. `σ` is the author, `κ` the key under which an author is
stored (the public key in multisig, the JSON text of the member in multisig2), `ρ` the request.
-/

namespace Verif

/-- `MultiSigRequestWithSigner` (multisig/src/lib.rs:73-77, multisig2/src/lib.rs:88-92). -/
structure Stored (σ ρ : Type) where
  request : ρ
  signer : σ
  added : Nat
deriving DecidableEq, Repr

/-- The fields `request_nonce`, `requests`, `confirmations`, `num_requests_pk` (multisig/src/lib.rs:81-89,
multisig2/src/lib.rs:118-133). Confirmation sets are duplicate free lists. -/
structure Book (σ κ ρ : Type) where
  nonce : Nat
  requests : UMap Nat (Stored σ ρ)
  confs : UMap Nat (List κ)
  counts : UMap κ Nat

namespace Book

variable {σ κ ρ : Type} [DecidableEq σ] [DecidableEq κ]

/-- Number of pending requests of an author. -/
def pending (b : Book σ κ ρ) (k : σ) : Nat :=
  b.requests.sum (fun _ st => if st.signer = k then 1 else 0)

/-- The part of `add_request` that changes the bookkeeping (multisig/src/lib.rs:132-144,
multisig2/src/lib.rs:186-198). -/
def add (b : Book σ κ ρ) (f : σ → κ) (st : Stored σ ρ) : Book σ κ ρ :=
  { nonce := b.nonce + 1
    requests := b.requests.insert b.nonce st
    confs := b.confs.insert b.nonce []
    counts := b.counts.insert (f st.signer) ((b.counts.get (f st.signer)).getD 0 + 1) }

/-- A stored confirmation (multisig/src/lib.rs:262-263, multisig2/src/lib.rs:311-312). -/
def confirm (b : Book σ κ ρ) (id : Nat) (cs : List κ) (k : κ) : Book σ κ ρ :=
  { b with confs := b.confs.insert id (cs ++ [k]) }

/-- `remove_request` (multisig/src/lib.rs:272-291, multisig2/src/lib.rs:382-404) for the stored
request `st`. -/
def remove (b : Book σ κ ρ) (f : σ → κ) (id : Nat) (st : Stored σ ρ) : Book σ κ ρ :=
  { b with
    confs := b.confs.remove id
    requests := b.requests.remove id
    counts := b.counts.insert (f st.signer) ((b.counts.get (f st.signer)).getD 0 - 1) }

/-- Ids of the pending requests of an author, in iteration order (multisig/src/lib.rs:202-207,
multisig2/src/lib.rs:362-366). -/
def idsOf (b : Book σ κ ρ) (k : σ) : List Nat :=
  (b.requests.entries.filter (fun p => p.2.signer = k)).map Prod.fst

/-- Remove several requests with their confirmations (multisig/src/lib.rs:208-212,
multisig2/src/lib.rs:367-371). -/
def removeIds (b : Book σ κ ρ) : List Nat → Book σ κ ρ
  | [] => b
  | id :: t => removeIds { b with confs := b.confs.remove id, requests := b.requests.remove id } t

/-- Forget an author (multisig/src/lib.rs:200-214, multisig2/src/lib.rs:361-373). -/
def purge (b : Book σ κ ρ) (f : σ → κ) (k : σ) : Book σ κ ρ :=
  let b1 := b.removeIds (b.idsOf k)
  { b1 with counts := b1.counts.remove (f k) }

/-- The consistency invariant. -/
structure Inv (f : σ → κ) (b : Book σ κ ρ) : Prop where
  ids : ∀ id, (b.requests.get id).isSome = (b.confs.get id).isSome
  lt : ∀ id st, b.requests.get id = some st → id < b.nonce
  nodup : ∀ id cs, b.confs.get id = some cs → cs.Nodup
  cnt : ∀ k, (b.counts.get (f k)).getD 0 = b.pending k

omit [DecidableEq σ] [DecidableEq κ] in
theorem removeIds_facts (l : List Nat) (b : Book σ κ ρ) :
    (b.removeIds l).nonce = b.nonce ∧ (b.removeIds l).counts = b.counts ∧
    (∀ id, (b.removeIds l).requests.get id = if id ∈ l then none else b.requests.get id) ∧
    (∀ id, (b.removeIds l).confs.get id = if id ∈ l then none else b.confs.get id) := by
  induction l generalizing b with
  | nil => simp [removeIds]
  | cons x t ih =>
    obtain ⟨h1, h2, h3, h4⟩ := ih { b with confs := b.confs.remove x, requests := b.requests.remove x }
    refine ⟨h1, h2, fun id => ?_, fun id => ?_⟩
    · rw [removeIds, h3]
      by_cases ht : id ∈ t
      · simp [ht]
      · by_cases hx : id = x
        · subst hx; simp
        · simp [ht, hx, UMap.get_remove_ne (Ne.symm hx)]
    · rw [removeIds, h4]
      by_cases ht : id ∈ t
      · simp [ht]
      · by_cases hx : id = x
        · subst hx; simp
        · simp [ht, hx, UMap.get_remove_ne (Ne.symm hx)]

omit [DecidableEq κ] in
theorem mem_idsOf {b : Book σ κ ρ} {k : σ} {id : Nat} :
    id ∈ b.idsOf k ↔ ∃ st, b.requests.get id = some st ∧ st.signer = k := by
  unfold idsOf
  simp only [List.mem_map, List.mem_filter, decide_eq_true_eq, Prod.exists, exists_and_right,
    exists_eq_right]
  constructor
  · rintro ⟨st, h1, h2⟩; exact ⟨st, UMap.get_eq_some.mpr h1, h2⟩
  · rintro ⟨st, h1, h2⟩; exact ⟨st, UMap.get_eq_some.mp h1, h2⟩

theorem purge_get (b : Book σ κ ρ) (f : σ → κ) (k : σ) (id : Nat) :
    (b.purge f k).requests.get id =
      (match b.requests.get id with
        | some st => if st.signer = k then none else some st
        | none => none) := by
  have h := (removeIds_facts (b.idsOf k) b).2.2.1 id
  show (b.removeIds (b.idsOf k)).requests.get id = _
  rw [h]
  by_cases hm : id ∈ b.idsOf k
  · obtain ⟨st, h1, h2⟩ := mem_idsOf.mp hm
    simp [hm, h1, h2]
  · rw [if_neg hm]
    cases hg : b.requests.get id with
    | none => rfl
    | some st =>
      have : ¬ st.signer = k := fun h => hm (mem_idsOf.mpr ⟨st, hg, h⟩)
      simp [this]

theorem purge_confs (b : Book σ κ ρ) (f : σ → κ) (k : σ) (id : Nat) :
    (b.purge f k).confs.get id =
      (match b.requests.get id with
        | some st => if st.signer = k then none else b.confs.get id
        | none => b.confs.get id) := by
  have h := (removeIds_facts (b.idsOf k) b).2.2.2 id
  show (b.removeIds (b.idsOf k)).confs.get id = _
  rw [h]
  by_cases hm : id ∈ b.idsOf k
  · obtain ⟨st, h1, h2⟩ := mem_idsOf.mp hm
    simp [hm, h1, h2]
  · rw [if_neg hm]
    cases hg : b.requests.get id with
    | none => rfl
    | some st =>
      have : ¬ st.signer = k := fun h => hm (mem_idsOf.mpr ⟨st, hg, h⟩)
      simp [this]

omit [DecidableEq κ] in
theorem pending_zero {b : Book σ κ ρ} {k : σ}
    (h : ∀ id st, b.requests.get id = some st → st.signer ≠ k) : b.pending k = 0 := by
  have : b.pending k ≤ b.requests.sum (fun _ _ => 0) := by
    apply UMap.sum_le_sum
    intro id st hm
    rw [if_neg (h id st (UMap.get_eq_some.mpr hm))]
  have h0 : b.requests.sum (fun _ _ => 0) = 0 := by
    unfold UMap.sum; simp
  omega

omit [DecidableEq κ] in
theorem pending_pos {b : Book σ κ ρ} {id : Nat} {st : Stored σ ρ}
    (h : b.requests.get id = some st) : 0 < b.pending st.signer := by
  have := UMap.part_le_sum b.requests (fun _ s => if s.signer = st.signer then 1 else 0) id
  unfold UMap.part at this
  rw [h] at this
  simp only [if_true] at this
  exact this

omit [DecidableEq κ] in
theorem pending_eq_length (b : Book σ κ ρ) (k : σ) : b.pending k = (b.idsOf k).length := by
  unfold pending UMap.sum idsOf
  rw [List.length_map]
  induction b.requests.entries with
  | nil => rfl
  | cons p t ih =>
    simp only [List.map_cons, List.sum_cons, ih, List.filter_cons]
    by_cases h : p.2.signer = k
    · simp [h]; omega
    · simp [h]

omit [DecidableEq κ] in
theorem idsOf_nodup (b : Book σ κ ρ) (k : σ) : (b.idsOf k).Nodup :=
  List.Sublist.nodup (List.Sublist.map Prod.fst List.filter_sublist) b.requests.keys_nodup

omit [DecidableEq κ] in
/-- Fewer requests, fewer pending ones. -/
theorem pending_mono {b b' : Book σ κ ρ}
    (h : ∀ id st, b'.requests.get id = some st → b.requests.get id = some st) (k : σ) :
    b'.pending k ≤ b.pending k := by
  rw [pending_eq_length, pending_eq_length]
  refine (List.subperm_of_subset (idsOf_nodup b' k) ?_).length_le
  intro id hid
  obtain ⟨st, h1, h2⟩ := mem_idsOf.mp hid
  exact mem_idsOf.mpr ⟨st, h id st h1, h2⟩

omit [DecidableEq κ] in
theorem removeIds_pending (k k' : σ) (hk : k ≠ k') (l : List Nat) (b : Book σ κ ρ)
    (h : ∀ id ∈ l, ∀ st, b.requests.get id = some st → st.signer = k) :
    (b.removeIds l).pending k' = b.pending k' := by
  induction l generalizing b with
  | nil => rfl
  | cons x t ih =>
    rw [removeIds, ih]
    · have h1 := UMap.sum_remove b.requests x (fun _ st => if st.signer = k' then 1 else 0)
      have h2 : b.requests.part (fun _ st => if st.signer = k' then 1 else 0) x = 0 := by
        unfold UMap.part
        cases hg : b.requests.get x with
        | none => rfl
        | some st =>
          have := h x (by simp) st hg
          simp only
          rw [if_neg (by rw [this]; exact hk)]
      unfold pending
      simp only
      omega
    · intro id hid st hst
      simp only at hst
      rw [UMap.get_remove] at hst
      split at hst
      · cases hst
      · exact h id (by simp [hid]) st hst

theorem Inv.add {f : σ → κ} (hf : Function.Injective f) {b : Book σ κ ρ} (h : Inv f b)
    (st : Stored σ ρ) : Inv f (b.add f st) := by
  have hnone : b.requests.get b.nonce = none := by
    cases hg : b.requests.get b.nonce with
    | none => rfl
    | some s => exact absurd (h.lt _ _ hg) (Nat.lt_irrefl _)
  constructor
  · intro id
    simp only [Book.add, UMap.get_insert]
    split
    · rfl
    · exact h.ids id
  · intro id s hs
    simp only [Book.add, UMap.get_insert] at hs ⊢
    split at hs
    · rename_i heq; omega
    · have := h.lt id s hs; omega
  · intro id cs hc
    simp only [Book.add, UMap.get_insert] at hc
    split at hc
    · cases hc; exact List.nodup_nil
    · exact h.nodup id cs hc
  · intro k
    have h1 := UMap.sum_insert b.requests b.nonce st (fun _ s => if s.signer = k then 1 else 0)
    have h2 : b.requests.part (fun _ s => if s.signer = k then 1 else 0) b.nonce = 0 := by
      unfold UMap.part; rw [hnone]
    have h3 := h.cnt k
    unfold pending at h3 ⊢
    simp only [Book.add, UMap.get_insert]
    by_cases hk : st.signer = k
    · subst hk
      simp only [if_true, Option.getD_some] at *
      omega
    · have : f st.signer ≠ f k := fun he => hk (hf he)
      rw [if_neg (this)]
      simp only [if_neg hk] at h1
      omega

theorem Inv.confirm {f : σ → κ} {b : Book σ κ ρ} (h : Inv f b) {id : Nat}
    {cs : List κ} {k : κ} (hc : b.confs.get id = some cs) (hk : k ∉ cs) :
    Inv f (b.confirm id cs k) := by
  constructor
  · intro id'
    simp only [Book.confirm, UMap.get_insert]
    split
    · rename_i heq
      subst heq
      rw [h.ids, hc]; rfl
    · exact h.ids id'
  · exact h.lt
  · intro id' cs' hc'
    simp only [Book.confirm, UMap.get_insert] at hc'
    split at hc'
    · cases hc'
      have := h.nodup id cs hc
      rw [List.nodup_append]
      refine ⟨this, by simp, ?_⟩
      intro a ha b hb
      simp at hb; subst hb
      exact fun he => hk (he ▸ ha)
    · exact h.nodup id' cs' hc'
  · exact h.cnt

theorem Inv.remove {f : σ → κ} (hf : Function.Injective f) {b : Book σ κ ρ} (h : Inv f b)
    {id : Nat} {st : Stored σ ρ} (hs : b.requests.get id = some st) : Inv f (b.remove f id st) := by
  constructor
  · intro id'
    simp only [Book.remove, UMap.get_remove]
    split
    · rfl
    · exact h.ids id'
  · intro id' s hs'
    simp only [Book.remove, UMap.get_remove] at hs' ⊢
    split at hs'
    · cases hs'
    · exact h.lt id' s hs'
  · intro id' cs hc
    simp only [Book.remove, UMap.get_remove] at hc
    split at hc
    · cases hc
    · exact h.nodup id' cs hc
  · intro k
    have h1 := UMap.sum_remove b.requests id (fun _ s => if s.signer = k then 1 else 0)
    have h2 : b.requests.part (fun _ s => if s.signer = k then 1 else 0) id =
        if st.signer = k then 1 else 0 := by
      unfold UMap.part; rw [hs]
    have h3 := h.cnt k
    unfold pending at h3 ⊢
    simp only [Book.remove, UMap.get_insert]
    by_cases hk : st.signer = k
    · subst hk
      simp only [if_true, Option.getD_some] at *
      omega
    · have : f st.signer ≠ f k := fun he => hk (hf he)
      rw [if_neg (this)]
      simp only [if_neg hk] at h2
      omega

theorem Inv.purge {f : σ → κ} (hf : Function.Injective f) {b : Book σ κ ρ} (h : Inv f b) (k : σ) :
    Inv f (b.purge f k) := by
  obtain ⟨g1, g2, _, _⟩ := removeIds_facts (b.idsOf k) b
  constructor
  · intro id
    rw [purge_get, purge_confs]
    have := h.ids id
    cases hg : b.requests.get id with
    | none => rw [hg] at this; simpa using this
    | some st =>
      rw [hg] at this
      simp only
      split
      · rfl
      · simpa using this
  · intro id st hs
    show id < (b.removeIds (b.idsOf k)).nonce
    rw [g1]
    rw [purge_get] at hs
    cases hg : b.requests.get id with
    | none => rw [hg] at hs; cases hs
    | some st' => exact h.lt id st' hg
  · intro id cs hc
    rw [purge_confs] at hc
    cases hg : b.requests.get id with
    | none => rw [hg] at hc; exact h.nodup id cs hc
    | some st' =>
      rw [hg] at hc
      simp only at hc
      split at hc
      · cases hc
      · exact h.nodup id cs hc
  · intro k'
    show (((b.removeIds (b.idsOf k)).counts.remove (f k)).get (f k')).getD 0 = _
    rw [g2, UMap.get_remove]
    by_cases hk : k = k'
    · subst hk
      rw [if_pos rfl]
      rw [pending_zero]
      · rfl
      · intro id st hs
        rw [purge_get] at hs
        cases hg : b.requests.get id with
        | none => rw [hg] at hs; cases hs
        | some st' =>
          rw [hg] at hs
          simp only at hs
          split at hs
          · cases hs
          · cases hs; assumption
    · have hne : f k ≠ f k' := fun he => hk (hf he)
      rw [if_neg (hne), h.cnt]
      exact (removeIds_pending k k' hk _ b (fun id hid st hst => by
        obtain ⟨st', h1, h2⟩ := mem_idsOf.mp hid
        rw [hst] at h1; cases h1; exact h2)).symm

end Book

end Verif
