import Mathlib.Data.List.Induction
import Verif.Multisig.Lemmas

/-! # Where stored requests, confirmations and scheduled batches come from -/

namespace Verif.Multisig

open Verif

theorem apply_facts (l : List Action) (s : State) :
    (∀ id st, (applyActions s l).book.requests.get id = some st →
      s.book.requests.get id = some st) ∧
    (∀ id cs, (applyActions s l).book.confs.get id = some cs → s.book.confs.get id = some cs) ∧
    (applyActions s l).book.nonce = s.book.nonce := by
  induction l generalizing s with
  | nil => exact ⟨fun _ _ h => h, fun _ _ h => h, rfl⟩
  | cons a t ih =>
    cases a with
    | deleteKey k =>
      obtain ⟨h1, h2, h3⟩ := ih { s with book := s.book.purge (fun k => k) k }
      obtain ⟨g1, g2⟩ := purge_sub s.book k
      exact ⟨fun id st h => g1 id st (h1 id st h), fun id cs h => g2 id cs (h2 id cs h),
        h3.trans (Book.removeIds_facts _ _).1⟩
    | setNumConfirmations n => exact ih { s with numConfirmations := n }
    | setActiveRequestsLimit n => exact ih { s with limit := n }
    | transfer x => exact ih s
    | createAccount => exact ih s
    | deployContract x => exact ih s
    | addKey k p => exact ih s
    | functionCall m x d g => exact ih s

theorem apply_config (l : List Action) (s : State) (hn : ∀ a ∈ l, a.toP ≠ none) :
    (applyActions s l).numConfirmations = s.numConfirmations ∧
    (applyActions s l).limit = s.limit := by
  induction l generalizing s with
  | nil => exact ⟨rfl, rfl⟩
  | cons a t ih =>
    have ht : ∀ a ∈ t, a.toP ≠ none := fun a ha => hn a (by simp [ha])
    cases a with
    | deleteKey k => exact ih { s with book := s.book.purge (fun k => k) k } ht
    | setNumConfirmations n => exact absurd rfl (hn _ List.mem_cons_self)
    | setActiveRequestsLimit n => exact absurd rfl (hn _ List.mem_cons_self)
    | transfer x => exact ih s ht
    | createAccount => exact ih s ht
    | deployContract x => exact ih s ht
    | addKey k p => exact ih s ht
    | functionCall m x d g => exact ih s ht

/-- A confirmation changes nothing but the request, its confirmations and what its actions change. -/
theorem conf_facts {e : Env} {s s' : State} {id : Nat} {b : Option Batch}
    (h : ConfRel e s id s' b) :
    (∀ id' st, s'.book.requests.get id' = some st → s.book.requests.get id' = some st) ∧
    (∀ id' cs k, s'.book.confs.get id' = some cs → k ∈ cs →
      (∃ cs0, s.book.confs.get id' = some cs0 ∧ k ∈ cs0) ∨ (k = e.signerPk ∧ id' = id)) ∧
    s'.book.nonce = s.book.nonce ∧ e.self = e.predecessor ∧
    (b = none → s'.numConfirmations = s.numConfirmations ∧ s'.limit = s.limit) := by
  cases h with
  | stored st cs h1 h2 h3 h4 h5 h6 =>
    refine ⟨fun _ _ h => h, ?_, rfl, h1, fun _ => ⟨rfl, rfl⟩⟩
    intro id' cs' k hc hk
    simp only [Book.confirm, UMap.get_insert] at hc
    split at hc
    · rename_i heq
      cases hc
      rcases List.mem_append.mp hk with hk | hk
      · exact .inl ⟨cs, by rw [← heq]; exact h3, hk⟩
      · exact .inr ⟨by simpa using hk, heq.symm⟩
    · exact .inl ⟨cs', hc, hk⟩
  | executed st cs h1 h2 h3 h4 h5 h6 h7 h8 =>
    obtain ⟨g1, g2, g3⟩ := apply_facts st.request.actions
      { s with book := s.book.remove (fun k => k) id st }
    have hs := remove_sub (b := s.book) (id := id) (st := st)
    exact ⟨fun id' st' h => hs.1 _ _ (g1 _ _ h), fun id' cs' k hc hk =>
      .inl ⟨cs', hs.2 _ _ (g2 _ _ hc), hk⟩, g3, h1, fun h => by cases h⟩

/-- The batch of a confirmation. -/
theorem conf_batch {e : Env} {s s' : State} {id : Nat} {b : Batch}
    (h : ConfRel e s id s' (some b)) :
    ∃ st cs, s.book.requests.get id = some st ∧ s.book.confs.get id = some cs ∧
      e.signerPk ∉ cs ∧ s.numConfirmations ≤ cs.length % two32 + 1 ∧ b = st.request.toBatch ∧
      Executable e.self st.request ∧ s'.book.requests.get id = none ∧
      s' = applyActions { s with book := s.book.remove (fun k => k) id st } st.request.actions := by
  cases h with
  | executed st cs h1 h2 h3 h4 h5 h6 h7 h8 =>
    refine ⟨st, cs, h2, h3, h4, h6, rfl, h7, ?_, rfl⟩
    obtain ⟨g1, _⟩ := apply_facts st.request.actions
      { s with book := s.book.remove (fun k => k) id st }
    cases hg : (applyActions { s with book := s.book.remove (fun k => k) id st }
        st.request.actions).book.requests.get id with
    | none => rfl
    | some st' =>
      have := g1 _ _ hg
      simp [Book.remove] at this

theorem added_get {e : Env} {s : State} {q : Request} {id : Nat} {st : Stored PublicKey Request}
    (h : (added e s q).book.requests.get id = some st) :
    s.book.requests.get id = some st ∨ (id = s.book.nonce ∧ st = ⟨q, e.signerPk, e.now⟩) := by
  simp only [added, Book.add, UMap.get_insert] at h
  split at h
  · rename_i heq; cases h; exact .inr ⟨heq.symm, rfl⟩
  · exact .inl h

theorem added_confs {e : Env} {s : State} {q : Request} {id : Nat} {cs : List PublicKey}
    {k : PublicKey} (h : (added e s q).book.confs.get id = some cs) (hk : k ∈ cs) :
    s.book.confs.get id = some cs := by
  simp only [added, Book.add, UMap.get_insert] at h
  split at h
  · cases h; simp at hk
  · exact h

/-- Summary of a successful call. -/
theorem exec_facts {e : Env} {s : State} {c : Call} {r : Res} (h : ExecRel e s c r) :
    e.self = e.predecessor ∧ e.attachedDeposit = 0 ∧
    (∀ id st, r.c.book.requests.get id = some st → s.book.requests.get id = some st ∨
      (id = s.book.nonce ∧ r.id = id ∧ st.signer = e.signerPk ∧ st.added = e.now ∧
        (c = .addRequest st.request ∨ c = .addRequestAndConfirm st.request))) ∧
    (∀ id cs k, r.c.book.confs.get id = some cs → k ∈ cs →
      (∃ cs0, s.book.confs.get id = some cs0 ∧ k ∈ cs0) ∨
      (k = e.signerPk ∧ (c = .confirm id ∨ ∃ q, c = .addRequestAndConfirm q ∧ r.id = id))) ∧
    s.book.nonce ≤ r.c.book.nonce ∧
    (∀ q, (c = .addRequest q ∨ c = .addRequestAndConfirm q) →
      r.id = s.book.nonce ∧ r.c.book.nonce = s.book.nonce + 1) := by
  cases h with
  | add q h1 h2 =>
    refine ⟨h2.self, h1, ?_, ?_, Nat.le_succ _, fun _ _ => ⟨rfl, rfl⟩⟩
    · intro id st hs
      rcases added_get hs with h | ⟨rfl, rfl⟩
      · exact .inl h
      · exact .inr ⟨rfl, rfl, rfl, rfl, .inl rfl⟩
    · intro id cs k hc hk; exact .inl ⟨cs, added_confs hc hk, hk⟩
  | addConfirm q s' b h1 h2 h3 =>
    obtain ⟨g1, g2, g3, g4, _⟩ := conf_facts h3
    refine ⟨h2.self, h1, ?_, ?_, ?_, fun _ _ => ⟨rfl, g3⟩⟩
    · intro id st hs
      rcases added_get (g1 _ _ hs) with h | ⟨rfl, rfl⟩
      · exact .inl h
      · exact .inr ⟨rfl, rfl, rfl, rfl, .inr rfl⟩
    · intro id cs k hc hk
      rcases g2 id cs k hc hk with ⟨cs0, h, hk0⟩ | ⟨h, rfl⟩
      · exact .inl ⟨cs0, added_confs h hk0, hk0⟩
      · exact .inr ⟨h, .inr ⟨q, rfl, rfl⟩⟩
    · show s.book.nonce ≤ s'.book.nonce
      rw [g3]; exact Nat.le_succ _
  | delete id st cs h1 h2 h3 h4 h5 h6 =>
    have hs := remove_sub (b := s.book) (id := id) (st := st)
    refine ⟨h2, h1, fun id' st' h => .inl (hs.1 _ _ h), fun id' cs' k hc hk =>
      .inl ⟨cs', hs.2 _ _ hc, hk⟩, Nat.le_refl _, ?_⟩
    rintro q (h | h) <;> cases h
  | confirm id s' b h1 h2 =>
    obtain ⟨g1, g2, g3, g4, _⟩ := conf_facts h2
    refine ⟨g4, h1, fun id' st' h => .inl (g1 _ _ h), ?_, le_of_eq g3.symm, ?_⟩
    · intro id' cs k hc hk
      rcases g2 id' cs k hc hk with h | ⟨h, rfl⟩
      · exact .inl h
      · exact .inr ⟨h, .inl rfl⟩
    · rintro q (h | h) <;> cases h

/-- Summary of a call that schedules a batch: `s1` is the state in which the confirmation counts (the
request was added before, or just now by the same call). -/
theorem exec_batch {e : Env} {s : State} {c : Call} {r : Res} {b : Batch} (h : ExecRel e s c r)
    (hb : r.batch = some b) :
    ∃ s1 st cs, ((s1 = s ∧ c = .confirm r.id) ∨
        (∃ q, s1 = added e s q ∧ c = .addRequestAndConfirm q ∧ r.id = s.book.nonce)) ∧
      s1.book.requests.get r.id = some st ∧ s1.book.confs.get r.id = some cs ∧ e.signerPk ∉ cs ∧
      s.numConfirmations ≤ cs.length % two32 + 1 ∧ b = st.request.toBatch ∧
      Executable e.self st.request ∧ r.c.book.requests.get r.id = none ∧
      r.c = applyActions { s1 with book := s1.book.remove (fun k => k) r.id st }
        st.request.actions := by
  cases h with
  | add q h1 h2 => cases hb
  | addConfirm q s' b' h1 h2 h3 =>
    simp only at hb; subst hb
    obtain ⟨st, cs, k1, k2, k3, k4, k5, k6, k7, k8⟩ := conf_batch h3
    refine ⟨added e s q, st, cs, .inr ⟨q, rfl, rfl, rfl⟩, k1, k2, k3, k4, k5, k6, k7, k8⟩
  | delete id st cs h1 h2 h3 h4 h5 h6 => cases hb
  | confirm id s' b' h1 h2 =>
    simp only at hb; subst hb
    obtain ⟨st, cs, k1, k2, k3, k4, k5, k6, k7, k8⟩ := conf_batch h2
    refine ⟨s, st, cs, .inl ⟨rfl, rfl⟩, k1, k2, k3, k4, k5, k6, k7, k8⟩

/-- Stored requests and confirmations stem from successful calls of the history. -/
structure Hist (me : AccountId) (w0 : World) (evs : List Ev) : Prop where
  req : ∀ id st, (run me w0 evs).c.book.requests.get id = some st →
    Sometime me w0 evs (fun w ev => Adds me w ev st.signer id st.request ∧ w.now = st.added)
  conf : ∀ id cs k, (run me w0 evs).c.book.confs.get id = some cs → k ∈ cs →
    Sometime me w0 evs (fun w ev => Confirms me w ev k id)

theorem started_empty {n : Nat} {w0 : World} (h : Started n w0) :
    (∀ id, w0.c.book.requests.get id = none) ∧ (∀ id, w0.c.book.confs.get id = none) ∧
    w0.issued = [] ∧ w0.c.book.nonce = 0 ∧ w0.c.numConfirmations = n ∧ w0.c.limit = 12 := by
  obtain ⟨c, now, hn, rfl⟩ := h
  obtain ⟨_, rfl⟩ := new_ok hn
  exact ⟨fun _ => rfl, fun _ => rfl, rfl, rfl, rfl, rfl⟩

theorem hist_run {self : AccountId} {n : Nat} {w0 : World} (hs : Started n w0) (evs : List Ev) :
    Hist self w0 evs := by
  induction evs using List.reverseRecOn with
  | nil =>
    obtain ⟨h1, h2, _⟩ := started_empty hs
    refine ⟨fun id st h => ?_, fun id cs k h => ?_⟩
    · simp only [run] at h; rw [h1 id] at h; cases h
    · simp only [run] at h; rw [h2 id] at h; cases h
  | append_singleton l ev ih =>
    cases ev with
    | tick dt =>
      refine ⟨fun id st h => ?_, fun id cs k h hk => ?_⟩
      · rw [run_snoc] at h; exact (ih.req id st h).snoc _
      · rw [run_snoc] at h; exact (ih.conf id cs k h hk).snoc _
    | call who pk att host c =>
      rcases step_call (self := self) (w := run self w0 l) (who := who) (pk := pk) (att := att)
        (host := host) (c := c) with ⟨r, hr, heq⟩ | ⟨_, heq⟩
      · obtain ⟨g1, g2, g3, g4, _⟩ := exec_facts hr
        have hw : who = self := g1.symm
        have ha : att = 0 := g2
        subst hw ha
        refine ⟨fun id st h => ?_, fun id cs k h hk => ?_⟩
        · rw [run_snoc, heq] at h
          rcases g3 id st h with h | ⟨h1, h2, h3, h4, h5⟩
          · exact (ih.req id st h).snoc _
          · refine Sometime.last ⟨⟨host, c, r, ?_, h5, ?_, h2⟩, h4.symm⟩
            · rw [h3]; rfl
            · rw [h3]; exact exec_ok.mpr hr
        · rw [run_snoc, heq] at h
          rcases g4 id cs k h hk with ⟨cs0, h1, h2⟩ | ⟨rfl, h1⟩
          · exact (ih.conf id cs0 k h1 h2).snoc _
          · refine Sometime.last ⟨host, r, ?_⟩
            rcases h1 with rfl | ⟨q, rfl, h2⟩
            · exact .inl ⟨rfl, exec_ok.mpr hr⟩
            · exact .inr ⟨q, rfl, exec_ok.mpr hr, h2⟩
      · refine ⟨fun id st h => ?_, fun id cs k h hk => ?_⟩
        · rw [run_snoc, heq] at h; exact (ih.req id st h).snoc _
        · rw [run_snoc, heq] at h; exact (ih.conf id cs k h hk).snoc _

end Verif.Multisig
