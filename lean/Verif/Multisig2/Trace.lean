import Verif.Multisig2.History

/-! # Ids, execution and their place in the history -/

namespace Verif.Multisig2

open Verif

theorem split_cases {α : Type} {l1 l2 m1 m2 : List α} {a b : α}
    (h : l1 ++ a :: l2 = m1 ++ b :: m2) :
    (l1 = m1 ∧ a = b ∧ l2 = m2) ∨ (∃ t, m1 = l1 ++ a :: t) ∨ (∃ t, l1 = m1 ++ b :: t) := by
  rcases List.append_eq_append_iff.mp h with ⟨t, h1, h2⟩ | ⟨t, h1, h2⟩
  · cases t with
    | nil => simp at h1 h2; exact .inl ⟨h1.symm, h2.1, h2.2⟩
    | cons x t => simp at h2; exact .inr (.inl ⟨t, by rw [h1, ← h2.1]⟩)
  · cases t with
    | nil => simp at h1 h2; exact .inl ⟨h1, h2.1.symm, h2.2.symm⟩
    | cons x t => simp at h2; exact .inr (.inr ⟨t, by rw [h1, h2.1]⟩)

theorem started_issued {self : AccountId} {ms : List Member} {n : Nat} {w0 : World}
    (h : Started self ms n w0) : w0.issued = [] := by
  obtain ⟨_, _, _, _, _, _, rfl⟩ := h; rfl

/-- A step that schedules a batch. -/
theorem issue_step {self : AccountId} {w : World} {ev : Ev}
    (h : (step self w ev).issued ≠ w.issued) :
    ∃ who k host c r b, ev = .call who k 0 host c ∧ ExecRel (mkEnv self w who k 0 host) w.c c r ∧
      r.batch = some b ∧ step self w ev = ⟨r.c, w.now, (r.id, b) :: w.issued⟩ := by
  cases ev with
  | tick dt => exact absurd rfl h
  | call who pk att host c =>
    rcases step_call (self := self) (w := w) (who := who) (pk := pk) (att := att) (host := host)
      (c := c) with ⟨r, hr, heq⟩ | ⟨_, heq⟩
    · obtain ⟨m, g1, g2, _⟩ := exec_facts hr
      have ha : att = 0 := g2
      subst ha
      cases hb : r.batch with
      | none => rw [heq] at h; simp [logged, hb] at h
      | some b => exact ⟨who, pk, host, c, r, b, rfl, hr, hb, by rw [heq]; simp [logged, hb]⟩
    · rw [heq] at h; exact absurd rfl h

/-- A step that schedules nothing leaves the configuration alone. -/
theorem quiet_config {self : AccountId} {w : World} {ev : Ev}
    (h : (step self w ev).issued = w.issued) :
    (step self w ev).c.numConfirmations = w.c.numConfirmations ∧
    (step self w ev).c.limit = w.c.limit ∧ (step self w ev).c.members = w.c.members := by
  cases ev with
  | tick dt => exact ⟨rfl, rfl, rfl⟩
  | call who pk att host c =>
    rcases step_call (self := self) (w := w) (who := who) (pk := pk) (att := att) (host := host)
      (c := c) with ⟨r, hr, heq⟩ | ⟨_, heq⟩
    · rw [heq] at h ⊢
      have hb : r.batch = none := by
        cases hb : r.batch with
        | none => rfl
        | some b =>
          simp only [logged, hb] at h
          exact absurd (congrArg List.length h) (by simp)
      cases hr with
      | add m q h1 h2 => exact ⟨rfl, rfl, rfl⟩
      | addConfirm m q s' b h1 h2 h3 =>
        simp only at hb; obtain ⟨_, _, _, _, _, g⟩ := conf_facts h3; exact g hb
      | delete id m st cs h1 h2 h3 h4 h5 h6 => exact ⟨rfl, rfl, rfl⟩
      | confirm id s' b h1 h2 =>
        simp only at hb; obtain ⟨_, _, _, _, _, g⟩ := conf_facts h2; exact g hb
    · rw [heq]; exact ⟨rfl, rfl, rfl⟩

theorem nonce_step {self : AccountId} {w : World} (ev : Ev) :
    w.c.book.nonce ≤ (step self w ev).c.book.nonce := by
  cases ev with
  | tick dt => exact Nat.le_refl _
  | call who pk att host c =>
    rcases step_call (self := self) (w := w) (who := who) (pk := pk) (att := att) (host := host)
      (c := c) with ⟨r, hr, heq⟩ | ⟨_, heq⟩
    · rw [heq]; obtain ⟨_, _, _, _, _, g, _⟩ := exec_facts hr; exact g
    · rw [heq]

theorem nonce_run {self : AccountId} {w : World} (evs : List Ev) :
    w.c.book.nonce ≤ (run self w evs).c.book.nonce := by
  induction evs generalizing w with
  | nil => exact Nat.le_refl _
  | cons ev t ih => exact Nat.le_trans (nonce_step ev) ih

theorem adds_nonce {self : AccountId} {w : World} {ev : Ev} {k : Member} {id : Nat}
    {q : Request} (h : Adds self w ev k id q) :
    id = w.c.book.nonce ∧ (step self w ev).c.book.nonce = id + 1 := by
  obtain ⟨who, pk, host, c, r, _, rfl, hc, hr, rfl⟩ := h
  obtain ⟨_, _, _, _, _, _, g⟩ := exec_facts (exec_ok.mp hr)
  obtain ⟨h1, h2⟩ := g q hc
  refine ⟨h1, ?_⟩
  simp only [step, hr]
  rw [h2, h1]

/-- Two additions under the same id are the same event. -/
theorem adds_unique {self : AccountId} {w0 : World} {l1 l2 m1 m2 : List Ev} {e1 e2 : Ev}
    {k1 k2 : Member} {id : Nat} {q1 q2 : Request} (h : l1 ++ e1 :: l2 = m1 ++ e2 :: m2)
    (h1 : Adds self (run self w0 l1) e1 k1 id q1) (h2 : Adds self (run self w0 m1) e2 k2 id q2) :
    l1 = m1 ∧ e1 = e2 ∧ l2 = m2 := by
  obtain ⟨a1, b1⟩ := adds_nonce h1
  obtain ⟨a2, b2⟩ := adds_nonce h2
  rcases split_cases h with h | ⟨t, ht⟩ | ⟨t, ht⟩
  · exact h
  · exfalso
    have : (step self (run self w0 l1) e1).c.book.nonce ≤ (run self w0 m1).c.book.nonce := by
      rw [ht, run_append]; exact nonce_run t
    omega
  · exfalso
    have : (step self (run self w0 m1) e2).c.book.nonce ≤ (run self w0 l1).c.book.nonce := by
      rw [ht, run_append]; exact nonce_run t
    omega

theorem adds_same {self : AccountId} {w : World} {ev : Ev} {k1 k2 : Member} {id : Nat}
    {q1 q2 : Request} (h1 : Adds self w ev k1 id q1) (h2 : Adds self w ev k2 id q2) :
    k1 = k2 ∧ q1 = q2 := by
  obtain ⟨who, pk, host, c, r, rfl, rfl, hc, hr, rfl⟩ := h1
  obtain ⟨who', pk', host', c', r', rfl, he, hc', hr', _⟩ := h2
  cases he
  refine ⟨rfl, ?_⟩
  rcases hc with rfl | rfl <;> rcases hc' with h | h <;> cases h <;> rfl

/-- The id was used and the request does not exist any more. -/
def Gone (w : World) (id : Nat) : Prop :=
  id < w.c.book.nonce ∧ w.c.book.requests.get id = none

theorem gone_step {self : AccountId} {w : World} (ev : Ev) {id : Nat} (h : Gone w id) :
    Gone (step self w ev) id ∧
      ∀ b, (id, b) ∈ (step self w ev).issued → (id, b) ∈ w.issued := by
  cases ev with
  | tick dt => exact ⟨h, fun _ hb => hb⟩
  | call who pk att host c =>
    rcases step_call (self := self) (w := w) (who := who) (pk := pk) (att := att) (host := host)
      (c := c) with ⟨r, hr, heq⟩ | ⟨_, heq⟩
    · obtain ⟨_, _, _, g3, _, g5, _⟩ := exec_facts hr
      rw [heq]
      refine ⟨⟨Nat.lt_of_lt_of_le h.1 g5, ?_⟩, ?_⟩
      · cases hg : r.c.book.requests.get id with
        | none => rfl
        | some st =>
          exfalso
          rcases g3 id st hg with h' | ⟨h', _⟩
          · rw [h.2] at h'; cases h'
          · exact absurd h.1 (by omega)
      · intro b hb
        simp only [logged] at hb
        cases hrb : r.batch with
        | none => rw [hrb] at hb; exact hb
        | some b' =>
          rw [hrb] at hb
          simp only [List.mem_cons] at hb
          rcases hb with hb | hb
          · exfalso
            cases hb
            obtain ⟨m, s1, st, cs, _, h1, h2, _⟩ := exec_batch hr hrb
            rcases h1 with ⟨rfl, _⟩ | ⟨q, rfl, _, h4⟩
            · rw [h.2] at h2; cases h2
            · exact absurd h.1 (by omega)
          · exact hb
    · rw [heq]; exact ⟨h, fun _ hb => hb⟩

theorem gone_run {self : AccountId} {w : World} (evs : List Ev) {id : Nat} (h : Gone w id) :
    Gone (run self w evs) id ∧ ∀ b, (id, b) ∈ (run self w evs).issued → (id, b) ∈ w.issued := by
  induction evs generalizing w with
  | nil => exact ⟨h, fun _ hb => hb⟩
  | cons ev t ih =>
    obtain ⟨h1, h2⟩ := gone_step (self := self) ev h
    obtain ⟨h3, h4⟩ := ih h1
    exact ⟨h3, fun b hb => h2 b (h4 b hb)⟩

theorem issue_gone {self : AccountId} {w : World} (hm : MInv w.c) {ev : Ev} {r : Res} {b : Batch}
    {who : AccountId} {k : PublicKey} {host : Bool} {c : Call}
    (hr : ExecRel (mkEnv self w who k 0 host) w.c c r) (hb : r.batch = some b)
    (hs : step self w ev = ⟨r.c, w.now, (r.id, b) :: w.issued⟩) :
    Gone (step self w ev) r.id ∧ ¬ Gone w r.id := by
  obtain ⟨m, s1, st, cs, _, h1, h2, _, _, _, _, _, h7, _⟩ := exec_batch hr hb
  obtain ⟨_, _, _, _, _, g5, g6⟩ := exec_facts hr
  rw [hs]
  rcases h1 with ⟨rfl, _⟩ | ⟨q, rfl, h3, h4⟩
  · refine ⟨⟨?_, h7⟩, ?_⟩
    · exact Nat.lt_of_lt_of_le (hm.book.lt _ _ h2) g5
    · rintro ⟨_, h⟩; rw [h2] at h; cases h
  · obtain ⟨g7, g8⟩ := g6 q (.inr h3)
    refine ⟨⟨?_, h7⟩, ?_⟩
    · show r.id < r.c.book.nonce
      omega
    · rintro ⟨h, _⟩; omega

/-- Ids of scheduled batches are used up, and are distinct. -/
structure IssuedInv (w : World) : Prop where
  gone : ∀ p ∈ w.issued, Gone w p.1
  nodup : (w.issued.map Prod.fst).Nodup

theorem issuedInv_step {self : AccountId} {w : World} (hm : MInv w.c) (h : IssuedInv w) (ev : Ev) :
    IssuedInv (step self w ev) := by
  by_cases hi : (step self w ev).issued = w.issued
  · refine ⟨?_, by rw [hi]; exact h.nodup⟩
    rw [hi]; exact fun p hp => (gone_step ev (h.gone p hp)).1
  · obtain ⟨who, k, host, c, r, b, _, hr, hb, hs⟩ := issue_step hi
    obtain ⟨g1, g2⟩ := issue_gone hm hr hb hs
    have hl : (step self w ev).issued = (r.id, b) :: w.issued := by rw [hs]
    refine ⟨?_, ?_⟩
    · rw [hl]; intro p hp
      rcases List.mem_cons.mp hp with rfl | hp
      · exact g1
      · exact (gone_step ev (h.gone p hp)).1
    · rw [hl]
      simp only [List.map_cons, List.nodup_cons]
      refine ⟨?_, h.nodup⟩
      intro hmem
      obtain ⟨p, hp, hp2⟩ := List.mem_map.mp hmem
      exact g2 (hp2 ▸ h.gone p hp)

theorem issuedInv_run {self : AccountId} {w : World} (hm : MInv w.c) (h : IssuedInv w)
    (evs : List Ev) : IssuedInv (run self w evs) := by
  induction evs generalizing w with
  | nil => exact h
  | cons ev t ih => exact ih (minv_step ev hm) (issuedInv_step hm h ev)

theorem started_issuedInv {self : AccountId} {ms : List Member} {n : Nat} {w0 : World}
    (h : Started self ms n w0) : IssuedInv w0 := by
  have h3 := started_issued h
  exact ⟨by rw [h3]; simp, by rw [h3]; simp⟩

theorem issued_mono {self : AccountId} {w : World} (evs : List Ev) {p : Nat × Batch}
    (h : p ∈ w.issued) : p ∈ (run self w evs).issued := by
  induction evs generalizing w with
  | nil => exact h
  | cons ev t ih =>
    refine ih ?_
    by_cases hi : (step self w ev).issued = w.issued
    · rw [hi]; exact h
    · obtain ⟨who, k, host, c, r, b, _, hr, hb, hs⟩ := issue_step hi
      rw [hs]; simp [h]

/-- Every scheduled batch was scheduled by some event. -/
theorem issued_at {self : AccountId} {ms : List Member} {n : Nat} {w0 : World}
    (hs : Started self ms n w0) (evs : List Ev)
    {id : Nat} {b : Batch} (hi : (id, b) ∈ (run self w0 evs).issued) :
    ∃ l1 ev l2, evs = l1 ++ ev :: l2 ∧
      (step self (run self w0 l1) ev).issued = (id, b) :: (run self w0 l1).issued := by
  induction evs using List.reverseRecOn with
  | nil =>
    have h3 := started_issued hs
    simp only [run] at hi; rw [h3] at hi; cases hi
  | append_singleton l ev ih =>
    by_cases he : (step self (run self w0 l) ev).issued = (run self w0 l).issued
    · rw [run_snoc, he] at hi
      obtain ⟨l1, e, l2, rfl, h⟩ := ih hi
      exact ⟨l1, e, l2 ++ [ev], by simp, h⟩
    · obtain ⟨who, k, host, c, r, b', he', hr, hb, hst⟩ := issue_step he
      rw [run_snoc, hst] at hi
      rcases List.mem_cons.mp hi with hi | hi
      · cases hi
        exact ⟨l, ev, [], rfl, by rw [hst]⟩
      · obtain ⟨l1, e, l2, rfl, h⟩ := ih hi
        exact ⟨l1, e, l2 ++ [ev], by simp, h⟩

/-- After a request that deletes the member `m`, no request of `m` is left. -/
theorem apply_purged {m : Member} (l : List Action) (s : State) (h : .deleteMember m ∈ l) :
    ∀ id st, (applyActions s l).book.requests.get id = some st → st.signer ≠ m := by
  induction l generalizing s with
  | nil => cases h
  | cons a t ih =>
    by_cases ha : a = .deleteMember m
    · subst ha
      intro id st hst
      have h1 := (apply_facts t (applyAction s (.deleteMember m))).1 id st hst
      exact ((purge_sub s.book m).1 id st h1).2
    · have ht : .deleteMember m ∈ t := by
        rcases List.mem_cons.mp h with h | h
        · exact absurd h.symm ha
        · exact h
      exact ih (applyAction s a) ht

/-- The request that a scheduled batch comes from, with its author. -/
theorem issue_origin {self : AccountId} {ms : List Member} {n : Nat} {w0 : World}
    (hs : Started self ms n w0) {evs : List Ev}
    {ev : Ev} {who : AccountId} {k : PublicKey} {host : Bool} {c : Call} {r : Res} {b : Batch}
    (he : ev = .call who k 0 host c)
    (hr : ExecRel (mkEnv self (run self w0 evs) who k 0 host) (run self w0 evs).c c r)
    (hb : r.batch = some b) :
    ∃ m' q, Sometime self w0 (evs ++ [ev]) (fun w ev => Adds self w ev m' r.id q) ∧
      b = q.toBatch self ∧ ∃ (s1 : State) (st : Stored Member Request), st.request = q ∧
        s1.numConfirmations = (run self w0 evs).c.numConfirmations ∧
        s1.limit = (run self w0 evs).c.limit ∧ s1.members = (run self w0 evs).c.members ∧
        Executable self { s1 with book := s1.book.remove Member.str r.id st } q ∧
        r.c = applyActions { s1 with book := s1.book.remove Member.str r.id st } q.actions := by
  obtain ⟨m, s1, st, cs, hm, h1, h2, h3, h4, h5, rfl, h7, _, h9⟩ := exec_batch hr hb
  refine ⟨st.signer, st.request, ?_, rfl, s1, st, rfl, ?_, ?_, ?_, h7, h9⟩
  · rcases h1 with ⟨rfl, _⟩ | ⟨q, rfl, hc, h6⟩
    · obtain ⟨l1, e1, l2, hl, ha, _⟩ := (hist_run hs evs).req _ _ h2
      exact Sometime.snoc ⟨l1, e1, l2, hl, ha⟩ _
    · have hmi := minv_run (self := self) evs (started_minv hs)
      rcases added_get h2 with h | ⟨_, rfl⟩
      · rw [h6] at h
        exact absurd (hmi.book.lt _ _ h) (Nat.lt_irrefl _)
      · subst he
        exact Sometime.last ⟨who, k, host, c, r, (currentMember_ok.mp hm).1, rfl, .inr hc,
          exec_ok.mpr hr, rfl⟩
  · rcases h1 with ⟨rfl, _⟩ | ⟨q, rfl, _, _⟩ <;> rfl
  · rcases h1 with ⟨rfl, _⟩ | ⟨q, rfl, _, _⟩ <;> rfl
  · rcases h1 with ⟨rfl, _⟩ | ⟨q, rfl, _, _⟩ <;> rfl

/-- A confirmation happens at or after the addition of the request. -/
theorem confirm_since {self : AccountId} {ms : List Member} {n : Nat} {w0 : World}
    (hs : Started self ms n w0)
    {evs l1 l2 : List Ev} {e1 : Ev} {k0 k : Member} {id : Nat} {q : Request}
    (hl : evs = l1 ++ e1 :: l2) (ha : Adds self (run self w0 l1) e1 k0 id q)
    (hc : Sometime self w0 evs (fun w ev => Confirms self w ev k id)) :
    Sometime self (run self w0 l1) (e1 :: l2) (fun w ev => Confirms self w ev k id) := by
  obtain ⟨m1, e2, m2, hm, hcf⟩ := hc
  have hsplit : l1 ++ e1 :: l2 = m1 ++ e2 :: m2 := by rw [← hl, hm]
  rcases split_cases hsplit with ⟨rfl, rfl, rfl⟩ | ⟨t, rfl⟩ | ⟨t, ht⟩
  · exact ⟨[], e1, l2, rfl, hcf⟩
  · refine ⟨e1 :: t, e2, m2, ?_, by rw [← run_append]; exact hcf⟩
    simpa using hsplit
  · exfalso
    -- the confirmation would precede the addition
    obtain ⟨a1, _⟩ := adds_nonce ha
    have hle : (step self (run self w0 m1) e2).c.book.nonce ≤ (run self w0 l1).c.book.nonce := by
      rw [ht, run_append]; exact nonce_run t
    have hinv := minv_run (self := self) m1 (started_minv hs)
    obtain ⟨who, pk, host, r, hact, h | ⟨q', h1, h2, h3⟩⟩ := hcf
    · obtain ⟨h1, h2⟩ := h
      have hlt : id < (run self w0 m1).c.book.nonce := by
        cases exec_ok.mp h2 with
        | confirm id s' b _ hcr =>
          cases hcr with
          | stored m st cs _ g _ _ _ _ => exact hinv.book.lt _ _ g
          | executed m st cs _ g _ _ _ _ _ _ => exact hinv.book.lt _ _ g
      have := nonce_step (self := self) (w := run self w0 m1) e2
      omega
    · have h4 : Adds self (run self w0 m1) e2 k id q' :=
        ⟨who, pk, host, _, r, hact, h1, .inr rfl, h2, h3⟩
      have := (adds_nonce h4).2
      omega

end Verif.Multisig2
