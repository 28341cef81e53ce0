import Verif.StateManip.Model

/-! # State manipulation: property theorems -/

namespace Verif.StateManip

open Verif

theorem decodeUnwrap_ok {cfg : Cfg} {s : String} {b : Bytes} :
    decodeUnwrap cfg s = .ok b ↔ cfg.decode s = some b := by
  unfold decodeUnwrap
  cases cfg.decode s <;> simp

theorem storageWrite_ok {cfg : Cfg} {st st' : Storage} {k v : Bytes} :
    storageWrite cfg st k v = .ok st' ↔
      cfg.canWrite k v = true ∧ st' = fun k' => if k' = k then some v else st k' := by
  unfold storageWrite
  split <;> rename_i h <;> simp [h, eq_comm]

theorem storageRemove_ok {cfg : Cfg} {st st' : Storage} {k : Bytes} :
    storageRemove cfg st k = .ok st' ↔
      cfg.canRemove k = true ∧ st' = fun k' => if k' = k then none else st k' := by
  unfold storageRemove
  split <;> rename_i h <;> simp [h, eq_comm]

/-! ## Specification -/

/-- The argument list decodes to the pairs. -/
inductive Decodes (cfg : Cfg) : List (String × String) → List (Bytes × Bytes) → Prop
  | nil : Decodes cfg [] []
  | cons {e p es ps} : cfg.decode e.1 = some p.1 ∧ cfg.decode e.2 = some p.2 → Decodes cfg es ps →
      Decodes cfg (e :: es) (p :: ps)

/-- The last value that a list of pairs gives for a key. -/
def Last (pairs : List (Bytes × Bytes)) (k v : Bytes) : Prop :=
  ∃ before after, pairs = before ++ (k, v) :: after ∧ ∀ p ∈ after, p.1 ≠ k

/-! ## A concrete host used in the examples -/

/-- Decoding of a few strings; keys of at most four bytes. -/
def demoCfg : Cfg :=
  { decode := fun s =>
      if s = "YQ==" then some [97] else if s = "Yg==" then some [98] else if s = "" then some [] else none
    canWrite := fun k _ => k.length ≤ 4
    canRemove := fun k => k.length ≤ 4 }

/-! ## C58 -/

theorem replaceLoop_ok {cfg : Cfg} {entries : List (String × String)} {st st' : Storage}
    (h : replaceLoop cfg st entries = .ok st') :
    ∃ pairs, Decodes cfg entries pairs ∧ (∀ p ∈ pairs, cfg.canWrite p.1 p.2 = true) ∧
      (∀ k v, Last pairs k v → st' k = some v) ∧ (∀ k, (∀ p ∈ pairs, p.1 ≠ k) → st' k = st k) := by
  induction entries generalizing st with
  | nil =>
    simp only [replaceLoop, Except.ok.injEq] at h
    subst h
    refine ⟨[], .nil, by simp, ?_, fun _ _ => rfl⟩
    rintro k v ⟨b, a, h, _⟩
    simp at h
  | cons e t ih =>
    obtain ⟨ks, vs⟩ := e
    simp only [replaceLoop, bind_ok, decodeUnwrap_ok, storageWrite_ok] at h
    obtain ⟨k0, hk, v0, hv, st1, ⟨hw, rfl⟩, h⟩ := h
    obtain ⟨pairs, h1, h2, h3, h4⟩ := ih h
    refine ⟨(k0, v0) :: pairs, .cons ⟨hk, hv⟩ h1, ?_, ?_, ?_⟩
    · intro p hp
      rcases List.mem_cons.mp hp with rfl | hp
      · exact hw
      · exact h2 p hp
    · rintro k v ⟨before, after, he, ha⟩
      cases before with
      | nil =>
        simp only [List.nil_append, List.cons.injEq, Prod.mk.injEq] at he
        obtain ⟨⟨rfl, rfl⟩, rfl⟩ := he
        rw [h4 k0 ha]
        simp
      | cons q before =>
        simp only [List.cons_append, List.cons.injEq] at he
        exact h3 k v ⟨before, after, he.2, ha⟩
    · intro k hk
      rw [h4 k (fun p hp => hk p (List.mem_cons_of_mem _ hp))]
      have : k ≠ k0 := fun h => hk (k0, v0) (List.mem_cons_self ..) h.symm
      simp [this]

/-- `replace` succeeds exactly if everything decodes and the host accepts every pair. Then every named key has
the last value given for it and every other key is as before. -/
theorem C58_replace {cfg : Cfg} (st : Storage) (entries : List (String × String)) :
    ((∃ st', replace cfg st (some entries) = .ok st') ↔
      ∃ pairs, Decodes cfg entries pairs ∧ ∀ p ∈ pairs, cfg.canWrite p.1 p.2 = true) ∧
    ∀ st' pairs, replace cfg st (some entries) = .ok st' → Decodes cfg entries pairs →
      (∀ k v, Last pairs k v → st' k = some v) ∧ (∀ k, (∀ p ∈ pairs, p.1 ≠ k) → st' k = st k) := by
  constructor
  · constructor
    · rintro ⟨st', h⟩
      obtain ⟨pairs, h1, h2, _⟩ := replaceLoop_ok h
      exact ⟨pairs, h1, h2⟩
    · rintro ⟨pairs, h1, h2⟩
      show ∃ st', replaceLoop cfg st entries = .ok st'
      induction h1 generalizing st with
      | nil => exact ⟨st, rfl⟩
      | @cons e p et pt hd _ ih =>
        obtain ⟨st', h⟩ := ih (fun k' => if k' = p.1 then some p.2 else st k')
          (fun q hq => h2 q (List.mem_cons_of_mem _ hq))
        refine ⟨st', ?_⟩
        simp only [replaceLoop, bind_ok, decodeUnwrap_ok, storageWrite_ok]
        exact ⟨p.1, hd.1, p.2, hd.2, _, ⟨h2 p (List.mem_cons_self ..), rfl⟩, h⟩
  · intro st' pairs h hd
    obtain ⟨pairs', h1, h2, h3, h4⟩ := replaceLoop_ok h
    have : pairs' = pairs := by
      clear h h2 h3 h4
      induction h1 generalizing pairs with
      | nil => cases hd; rfl
      | cons hp _ ih =>
        cases hd with
        | cons hq ht =>
          rw [ih _ ht]
          congr 1
          exact Prod.ext (Option.some.inj (hp.1.symm.trans hq.1)) (Option.some.inj (hp.2.symm.trans hq.2))
    subst this
    exact ⟨h3, h4⟩

/-- Every key is either named, then it has a last value, or not named. -/
theorem C58_named_or_not (pairs : List (Bytes × Bytes)) (k : Bytes) :
    (∃ v, Last pairs k v) ∨ ∀ p ∈ pairs, p.1 ≠ k := by
  induction pairs with
  | nil => right; simp
  | cons p t ih =>
    rcases ih with ⟨v, b, a, h, ha⟩ | h
    · exact .inl ⟨v, p :: b, a, by rw [h]; rfl, ha⟩
    · by_cases hk : p.1 = k
      · exact .inl ⟨p.2, [], t, by rw [← hk]; rfl, h⟩
      · right
        intro q hq
        rcases List.mem_cons.mp hq with rfl | hq
        · exact hk
        · exact h q hq

/-- `clean` succeeds exactly if every key decodes and the host accepts it; it removes exactly the named keys. -/
theorem C58_clean {cfg : Cfg} (st : Storage) (keys : List String) :
    ((∃ st', clean cfg st (some keys) = .ok st') ↔
      ∃ ks : List Bytes, keys.map cfg.decode = ks.map some ∧ ∀ k ∈ ks, cfg.canRemove k = true) ∧
    ∀ st', clean cfg st (some keys) = .ok st' →
      ∀ k, st' k = none ∧ some k ∈ keys.map cfg.decode ∨ st' k = st k ∧ some k ∉ keys.map cfg.decode := by
  show ((∃ st', cleanLoop cfg st keys = .ok st') ↔ _) ∧ ∀ st', cleanLoop cfg st keys = .ok st' → _
  induction keys generalizing st with
  | nil =>
    refine ⟨⟨fun _ => ⟨[], rfl, by simp⟩, fun _ => ⟨st, rfl⟩⟩, ?_⟩
    intro st' h k
    simp only [cleanLoop, Except.ok.injEq] at h
    subst h
    exact .inr ⟨rfl, by simp⟩
  | cons e t ih =>
    constructor
    · constructor
      · rintro ⟨st', h⟩
        simp only [cleanLoop, bind_ok, decodeUnwrap_ok, storageRemove_ok] at h
        obtain ⟨k, hk, st1, ⟨hr, rfl⟩, h⟩ := h
        obtain ⟨ks, h1, h2⟩ := (ih _).1.mp ⟨st', h⟩
        refine ⟨k :: ks, by simp [hk, h1], ?_⟩
        intro q hq
        rcases List.mem_cons.mp hq with rfl | hq
        · exact hr
        · exact h2 q hq
      · rintro ⟨ks, h1, h2⟩
        cases ks with
        | nil => simp at h1
        | cons k ks =>
          simp only [List.map_cons, List.cons.injEq] at h1
          obtain ⟨st', h⟩ := (ih (fun k' => if k' = k then none else st k')).1.mpr
            ⟨ks, h1.2, fun q hq => h2 q (List.mem_cons_of_mem _ hq)⟩
          refine ⟨st', ?_⟩
          simp only [cleanLoop, bind_ok, decodeUnwrap_ok, storageRemove_ok]
          exact ⟨k, h1.1, _, ⟨h2 k (List.mem_cons_self ..), rfl⟩, h⟩
    · intro st' h k
      simp only [cleanLoop, bind_ok, decodeUnwrap_ok, storageRemove_ok] at h
      obtain ⟨k0, hk, st1, ⟨hr, rfl⟩, h⟩ := h
      simp only [List.map_cons, List.mem_cons, hk]
      rcases (ih _).2 st' h k with ⟨h1, h2⟩ | ⟨h1, h2⟩
      · exact .inl ⟨h1, .inr h2⟩
      · by_cases hkk : k = k0
        · left
          refine ⟨?_, .inl (by rw [hkk])⟩
          rw [h1]; simp [hkk]
        · right
          refine ⟨by rw [h1]; simp [hkk], ?_⟩
          rintro (h3 | h3)
          · exact hkk (Option.some.inj h3)
          · exact h2 h3

/-- If anything cannot be decoded, or the input is malformed, the call fails and the storage stays as it
was. -/
theorem C58_undecodable {cfg : Cfg} (st : Storage) (input : Option (List (String × String)))
    (h : ∀ entries, input = some entries → ∃ e ∈ entries, cfg.decode e.1 = none ∨ cfg.decode e.2 = none) :
    (¬ ∃ st', replace cfg st input = .ok st') ∧ commit st (replace cfg st input) = st := by
  have hno : ¬ ∃ st', replace cfg st input = .ok st' := by
    rintro ⟨st', hr⟩
    cases input with
    | none => cases hr
    | some entries =>
      obtain ⟨pairs, hd, hc⟩ := (C58_replace (cfg := cfg) st entries).1.mp ⟨st', hr⟩
      obtain ⟨e, he, hn⟩ := h entries rfl
      clear hr h hc
      induction hd with
      | nil => cases he
      | cons hp _ ih =>
        rcases List.mem_cons.mp he with rfl | he
        · rcases hn with hn | hn
          · rw [hp.1] at hn; cases hn
          · rw [hp.2] at hn; cases hn
        · exact ih he
  refine ⟨hno, ?_⟩
  cases hr : replace cfg st input with
  | error m => rfl
  | ok st' => exact absurd ⟨st', hr⟩ hno

/-- The same of `clean`. -/
theorem C58_undecodable_clean {cfg : Cfg} (st : Storage) (input : Option (List String))
    (h : ∀ keys, input = some keys → ∃ k ∈ keys, cfg.decode k = none) :
    (¬ ∃ st', clean cfg st input = .ok st') ∧ commit st (clean cfg st input) = st := by
  have hno : ¬ ∃ st', clean cfg st input = .ok st' := by
    rintro ⟨st', hr⟩
    cases input with
    | none => cases hr
    | some keys =>
      obtain ⟨ks, hk, _⟩ := (C58_clean (cfg := cfg) st keys).1.mp ⟨st', hr⟩
      obtain ⟨k, he, hn⟩ := h keys rfl
      have : cfg.decode k ∈ ks.map some := by rw [← hk]; exact List.mem_map_of_mem he
      rw [hn] at this
      simp at this
  refine ⟨hno, ?_⟩
  cases hr : clean cfg st input with
  | error m => rfl
  | ok st' => exact absurd ⟨st', hr⟩ hno

/-- Writing pairs and then cleaning their keys leaves the storage without them and otherwise as before. -/
theorem C58_replace_then_clean {cfg : Cfg} {st st1 st2 : Storage} {entries : List (String × String)}
    (h1 : replace cfg st (some entries) = .ok st1)
    (h2 : clean cfg st1 (some (entries.map (·.1))) = .ok st2) (k : Bytes) :
    st2 k = if some k ∈ entries.map (fun e => cfg.decode e.1) then none else st k := by
  have hm : (entries.map (·.1)).map cfg.decode = entries.map (fun e => cfg.decode e.1) := by simp
  rcases (C58_clean st1 _).2 st2 h2 k with ⟨g1, g2⟩ | ⟨g1, g2⟩
  · rw [hm] at g2
    rw [if_pos g2, g1]
  · rw [hm] at g2
    rw [if_neg g2, g1]
    obtain ⟨pairs, hd, hc⟩ := (C58_replace st entries).1.mp ⟨st1, h1⟩
    refine ((C58_replace st entries).2 st1 pairs h1 hd).2 k ?_
    intro p hp hpk
    apply g2
    clear h1 h2 g1 g2 hm hc
    induction hd with
    | nil => cases hp
    | cons hq _ ih =>
      rcases List.mem_cons.mp hp with rfl | hp
      · rw [List.map_cons, hq.1, hpk]; exact List.mem_cons_self ..
      · rw [List.map_cons]; exact List.mem_cons_of_mem _ (ih hp)

/-! ## Concrete cases -/

example : Decodes demoCfg [("YQ==", "Yg=="), ("Yg==", ""), ("YQ==", "YQ==")]
    [([97], [98]), ([98], []), ([97], [97])] :=
  .cons ⟨rfl, rfl⟩ (.cons ⟨rfl, rfl⟩ (.cons ⟨rfl, rfl⟩ .nil))

example : Last [([97], [98]), ([98], []), ([97], [97])] [97] [97] :=
  ⟨[([97], [98]), ([98], [])], [], rfl, by simp⟩

/-- A duplicate key: the last value wins; an empty value is a value. -/
example : ∃ st', replace demoCfg (fun _ => none)
      (some [("YQ==", "Yg=="), ("Yg==", ""), ("YQ==", "YQ==")]) = .ok st' ∧
    st' [97] = some [97] ∧ st' [98] = some [] ∧ st' [99] = none := ⟨_, rfl, rfl, rfl, rfl⟩

/-- The second entry cannot be decoded: the first one is not written either. -/
example : commit (fun _ => none) (replace demoCfg (fun _ => none)
    (some [("YQ==", "Yg=="), ("%%", "")])) [97] = none := rfl

example : ∃ st', clean demoCfg (fun _ => some [1]) (some ["YQ==", "YQ=="]) = .ok st' ∧
    st' [97] = none ∧ st' [98] = some [1] := ⟨_, rfl, rfl, rfl⟩

end Verif.StateManip
