import Verif.Multisig2.Props

/-! # The threshold and the number of members: lemmas for C47 -/

namespace Verif.Multisig2

open Verif

theorem len_getMembers (s : State) : s.members.len = (getMembers s).length := UMap.len_eq_keys _

theorem nodup_getMembers (s : State) : (getMembers s).Nodup := UMap.keys_nodup _

theorem len_insert_ge (u : UMap Member Unit) (m : Member) : u.len ≤ (u.insert m ()).len := by
  rw [UMap.len_eq_keys, UMap.len_eq_keys]
  refine (List.subperm_of_subset (UMap.keys_nodup u) ?_).length_le
  intro x hx
  rw [UMap.mem_keys_insert]; exact .inr hx

theorem len_remove_ge (u : UMap Member Unit) (m : Member) : u.len ≤ (u.remove m).len + 1 := by
  rw [UMap.len_eq_keys, UMap.len_eq_keys]
  have : u.keys.Subperm (m :: (u.remove m).keys) := by
    refine List.subperm_of_subset (UMap.keys_nodup u) ?_
    intro x hx
    by_cases h : x = m
    · subst h; exact List.mem_cons_self
    · exact List.mem_cons_of_mem _ (UMap.mem_keys_remove.mpr ⟨h, hx⟩)
  simpa using this.length_le

/-- Actions other than setting the threshold keep it at most the number of members. -/
theorem apply_threshold {self rc : AccountId} {num : Nat} (l : List Action) (s : State)
    (hal : AllowedAll self rc num s l) (hn : ∀ a ∈ l, ∀ n, a ≠ .setNumConfirmations n)
    (h : s.numConfirmations ≤ s.members.len) :
    (applyActions s l).numConfirmations ≤ (applyActions s l).members.len := by
  induction l generalizing s with
  | nil => exact h
  | cons a t ih =>
    refine ih (applyAction s a) hal.2 (fun a ha => hn a (by simp [ha])) ?_
    have h1 := hal.1
    cases a with
    | addMember m => exact Nat.le_trans h (len_insert_ge _ _)
    | deleteMember m =>
      have := len_remove_ge s.members m
      have h2 := h1.2
      show s.numConfirmations ≤ (s.members.remove m).len
      omega
    | setNumConfirmations n => exact absurd rfl (hn _ List.mem_cons_self n)
    | _ => exact h

theorem insertAll_length (l : List Member) (hl : l.Nodup) :
    l.length ≤ (insertAll .empty l).len := by
  rw [UMap.len_eq_keys]
  exact (List.subperm_of_subset hl (fun x hx => mem_insertAll.mpr (.inr hx))).length_le

/-! ## Joint confirmation -/

/-- The member `m` confirms the request `id`, in the natural way. -/
def confirmBy (self : AccountId) (id : Nat) : Member → Ev
  | .key k => .call self k 0 true (.confirm id)
  | .account a => .call a "" 0 true (.confirm id)

theorem confirmBy_eq {self : AccountId} {m : Member} (hm : m ≠ .account self) (id : Nat) :
    ∃ who pk, confirmBy self id m = .call who pk 0 true (.confirm id) ∧ actor self who pk = m := by
  cases m with
  | key k => exact ⟨self, k, rfl, by simp [actor]⟩
  | account a =>
    refine ⟨a, "", rfl, ?_⟩
    have : self ≠ a := by rintro rfl; exact hm rfl
    simp [actor, this]

theorem confirm_all {self : AccountId} {id : Nat} {st : Stored Member Request} (ml : List Member)
    (w : World) (cs : List String) (hinv : MInv w.c) (hg : w.c.book.requests.get id = some st)
    (hc : w.c.book.confs.get id = some cs) (hnd : ml.Nodup)
    (hm : ∀ m ∈ ml, m ∈ getMembers w.c ∧ m ≠ .account self ∧ m.str ∉ cs)
    (hex : Executable self w.c st.request) (hne : ml ≠ [])
    (hnum : w.c.numConfirmations ≤ cs.length + ml.length) :
    (id, st.request.toBatch self) ∈ (run self w (ml.map (confirmBy self id))).issued := by
  induction ml generalizing w cs with
  | nil => exact absurd rfl hne
  | cons m t ih =>
    obtain ⟨h1, h2, h3⟩ := hm m List.mem_cons_self
    obtain ⟨who, pk, he, hact⟩ := confirmBy_eq h2 id
    have hlen := hinv.len id cs hc
    have hmod : cs.length % two32 = cs.length := Nat.mod_eq_of_lt (by omega)
    have hcur : currentMember (mkEnv self w who pk 0 true) w.c = some m :=
      currentMember_ok.mpr ⟨hact, h1⟩
    simp only [List.map_cons, run]
    by_cases hn : w.c.numConfirmations ≤ cs.length + 1
    · apply issued_mono
      have hr : ExecRel (mkEnv self w who pk 0 true) w.c (.confirm id) ⟨_, id, _⟩ :=
        .confirm id _ _ rfl (.executed m st cs hcur hg hc h3 (by rw [hmod]; exact hlen)
          (by rw [hmod]; exact hn)
          ((executable_congr (s := { w.c with book := w.c.book.remove Member.str id st })
            (s' := w.c) rfl rfl).mpr hex) rfl)
      rw [he]
      simp only [step, exec_ok.mpr hr, logged]
      exact List.mem_cons_self
    · have hr : ExecRel (mkEnv self w who pk 0 true) w.c (.confirm id) ⟨_, id, _⟩ :=
        .confirm id _ _ rfl (.stored m st cs hcur hg hc h3 (by rw [hmod]; exact hlen)
          (by rw [hmod]; omega))
      have hst : step self w (confirmBy self id m) =
          { w with c := { w.c with book := w.c.book.confirm id cs m.str } } := by
        rw [he]; simp only [step, exec_ok.mpr hr, logged]
      have hinv' := minv_step (self := self) (confirmBy self id m) hinv
      rw [hst] at hinv' ⊢
      simp only [List.length_cons] at hnum
      refine ih { w with c := { w.c with book := w.c.book.confirm id cs m.str } } (cs ++ [m.str])
        hinv' hg ?_ (List.nodup_cons.mp hnd).2 ?_ ?_ ?_ ?_
      · simp [Book.confirm]
      · intro m' hm'
        obtain ⟨g1, g2, g3⟩ := hm m' (List.mem_cons_of_mem _ hm')
        refine ⟨g1, g2, ?_⟩
        intro hmem
        rcases List.mem_append.mp hmem with hmem | hmem
        · exact g3 hmem
        · have := str_inj (List.mem_singleton.mp hmem)
          subst this
          exact (List.nodup_cons.mp hnd).1 hm'
      · exact (executable_congr (s := w.c)
          (s' := { w.c with book := w.c.book.confirm id cs m.str }) rfl rfl).mp hex
      · rintro rfl
        simp only [List.length_nil] at hnum
        omega
      · show w.c.numConfirmations ≤ (cs ++ [m.str]).length + t.length
        simp only [List.length_append, List.length_cons, List.length_nil]
        omega

/-! ## Lock-out -/

/-- Confirmations are by the current members, and these are fewer than the threshold. -/
structure Locked (s : State) : Prop where
  few : s.members.len < s.numConfirmations
  conf : ∀ id cs k, s.book.confs.get id = some cs → k ∈ cs → ∃ m ∈ getMembers s, k = m.str
  inv : MInv s

theorem locked_none {s : State} (h : Locked s) {id : Nat} {cs : List String} {m : Member}
    (hc : s.book.confs.get id = some cs) (hm : m ∈ getMembers s) (hn : m.str ∉ cs) :
    cs.length % two32 + 1 < s.numConfirmations := by
  have hnd : (m.str :: cs).Nodup := List.nodup_cons.mpr ⟨hn, h.inv.book.nodup _ _ hc⟩
  have hsub : (m.str :: cs) ⊆ (getMembers s).map Member.str := by
    intro k hk
    rcases List.mem_cons.mp hk with rfl | hk
    · exact List.mem_map_of_mem hm
    · obtain ⟨m', g1, rfl⟩ := h.conf _ _ _ hc hk
      exact List.mem_map_of_mem g1
  have := (List.subperm_of_subset hnd hsub).length_le
  simp only [List.length_cons, List.length_map] at this
  have h2 := h.few
  rw [len_getMembers] at h2
  have := Nat.mod_le cs.length two32
  omega

theorem locked_conf {e : Env} {s s' : State} {id : Nat} {b : Option Batch} (h : Locked s)
    (hr : ConfRel e s id s' b) : Locked s' ∧ b = none := by
  have hinv := h.inv.conf hr
  cases hr with
  | stored m st cs h1 h2 h3 h4 h5 h6 =>
    refine ⟨⟨h.few, ?_, hinv⟩, rfl⟩
    intro id' cs' k hc hk
    simp only [Book.confirm, UMap.get_insert] at hc
    split at hc
    · cases hc
      rcases List.mem_append.mp hk with hk | hk
      · exact h.conf _ _ _ h3 hk
      · exact ⟨m, (currentMember_ok.mp h1).2, List.mem_singleton.mp hk⟩
    · exact h.conf _ _ _ hc hk
  | executed m st cs h1 h2 h3 h4 h5 h6 h7 h8 =>
    exact absurd (locked_none h h3 (currentMember_ok.mp h1).2 h4) (by omega)

theorem locked_add {e : Env} {s : State} {m : Member} {q : Request} (h : Locked s)
    (hc : CanAdd e s m q) : Locked (added e s m q) :=
  ⟨h.few, fun id cs k hcs hk => h.conf id cs k (added_confs hcs hk) hk, h.inv.add hc⟩

theorem locked_step {self : AccountId} {w : World} (h : Locked w.c) (ev : Ev) :
    Locked (step self w ev).c ∧ (step self w ev).issued = w.issued := by
  cases ev with
  | tick dt => exact ⟨h, rfl⟩
  | call who pk att host c =>
    rcases step_call (self := self) (w := w) (who := who) (pk := pk) (att := att) (host := host)
      (c := c) with ⟨r, hr, heq⟩ | ⟨_, heq⟩
    · rw [heq]
      cases hr with
      | add m q h1 h2 => exact ⟨locked_add h h2, rfl⟩
      | addConfirm m q s' b h1 h2 h3 =>
        obtain ⟨g1, rfl⟩ := locked_conf (locked_add h h2) h3
        exact ⟨g1, rfl⟩
      | delete id m st cs h1 h2 h3 h4 h5 h6 =>
        have hs := remove_sub (b := w.c.book) (id := id) (st := st)
        exact ⟨⟨h.few, fun id' cs' k hc hk => h.conf id' cs' k (hs.2 _ _ hc) hk, h.inv.removed h3⟩,
          rfl⟩
      | confirm id s' b h1 h2 =>
        obtain ⟨g1, rfl⟩ := locked_conf h h2
        exact ⟨g1, rfl⟩
    · rw [heq]; exact ⟨h, rfl⟩

theorem locked_run {self : AccountId} {w : World} (h : Locked w.c) (evs : List Ev) :
    (run self w evs).issued = w.issued := by
  induction evs generalizing w with
  | nil => rfl
  | cons ev t ih =>
    obtain ⟨h1, h2⟩ := locked_step (self := self) h ev
    exact (ih h1).trans h2

end Verif.Multisig2
