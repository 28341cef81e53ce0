import Mathlib.Data.List.Induction
import Verif.Multisig2.Lemmas

/-! # Where stored requests, confirmations and scheduled batches come from -/

namespace Verif.Multisig2

open Verif

theorem apply_facts (l : List Action) (s : State) :
    (∀ id st, (applyActions s l).book.requests.get id = some st →
      s.book.requests.get id = some st) ∧
    (∀ id cs, (applyActions s l).book.confs.get id = some cs → s.book.confs.get id = some cs) ∧
    (applyActions s l).book.nonce = s.book.nonce := by
  induction l generalizing s with
  | nil => exact ⟨fun _ _ h => h, fun _ _ h => h, rfl⟩
  | cons a t ih =>
    obtain ⟨h1, h2, h3⟩ := ih (applyAction s a)
    have base : (∀ id st, (applyAction s a).book.requests.get id = some st →
        s.book.requests.get id = some st) ∧
        (∀ id cs, (applyAction s a).book.confs.get id = some cs → s.book.confs.get id = some cs) ∧
        (applyAction s a).book.nonce = s.book.nonce := by
      cases a with
      | deleteMember m =>
        obtain ⟨g1, g2⟩ := purge_sub s.book m
        exact ⟨fun id st h => (g1 id st h).1, g2, (Book.removeIds_facts _ _).1⟩
      | _ => exact ⟨fun _ _ h => h, fun _ _ h => h, rfl⟩
    exact ⟨fun id st h => base.1 id st (h1 id st h), fun id cs h => base.2.1 id cs (h2 id cs h),
      h3.trans base.2.2⟩

/-- The action changes the threshold or the limit. -/
def Action.isSet : Action → Bool
  | .setNumConfirmations _ => true
  | .setActiveRequestsLimit _ => true
  | _ => false

/-- The action changes the members. -/
def Action.isMember : Action → Bool
  | .addMember _ => true
  | .deleteMember _ => true
  | _ => false

theorem apply_config (l : List Action) (s : State) (hn : ∀ a ∈ l, a.isSet = false) :
    (applyActions s l).numConfirmations = s.numConfirmations ∧
    (applyActions s l).limit = s.limit := by
  induction l generalizing s with
  | nil => exact ⟨rfl, rfl⟩
  | cons a t ih =>
    have ht : ∀ a ∈ t, a.isSet = false := fun a ha => hn a (by simp [ha])
    obtain ⟨h1, h2⟩ := ih (applyAction s a) ht
    have ha := hn a List.mem_cons_self
    have base : (applyAction s a).numConfirmations = s.numConfirmations ∧
        (applyAction s a).limit = s.limit := by
      cases a with
      | setNumConfirmations n => cases ha
      | setActiveRequestsLimit n => cases ha
      | _ => exact ⟨rfl, rfl⟩
    exact ⟨h1.trans base.1, h2.trans base.2⟩

theorem apply_members (l : List Action) (s : State) (hn : ∀ a ∈ l, a.isMember = false) :
    (applyActions s l).members = s.members := by
  induction l generalizing s with
  | nil => rfl
  | cons a t ih =>
    have ht : ∀ a ∈ t, a.isMember = false := fun a ha => hn a (by simp [ha])
    have ha := hn a List.mem_cons_self
    refine (ih (applyAction s a) ht).trans ?_
    cases a with
    | addMember n => cases ha
    | deleteMember n => cases ha
    | _ => rfl

/-- A confirmation changes nothing but the request, its confirmations and what its actions change. -/
theorem conf_facts {e : Env} {s s' : State} {id : Nat} {b : Option Batch}
    (h : ConfRel e s id s' b) :
    ∃ m, currentMember e s = some m ∧
    (∀ id' st, s'.book.requests.get id' = some st → s.book.requests.get id' = some st) ∧
    (∀ id' cs k, s'.book.confs.get id' = some cs → k ∈ cs →
      (∃ cs0, s.book.confs.get id' = some cs0 ∧ k ∈ cs0) ∨ (k = m.str ∧ id' = id)) ∧
    s'.book.nonce = s.book.nonce ∧
    (b = none → s'.numConfirmations = s.numConfirmations ∧ s'.limit = s.limit ∧
      s'.members = s.members) := by
  cases h with
  | stored m st cs h1 h2 h3 h4 h5 h6 =>
    refine ⟨m, h1, fun _ _ h => h, ?_, rfl, fun _ => ⟨rfl, rfl, rfl⟩⟩
    intro id' cs' k hc hk
    simp only [Book.confirm, UMap.get_insert] at hc
    split at hc
    · rename_i heq
      cases hc
      rcases List.mem_append.mp hk with hk | hk
      · exact .inl ⟨cs, by rw [← heq]; exact h3, hk⟩
      · exact .inr ⟨by simpa using hk, heq.symm⟩
    · exact .inl ⟨cs', hc, hk⟩
  | executed m st cs h1 h2 h3 h4 h5 h6 h7 h8 =>
    obtain ⟨g1, g2, g3⟩ := apply_facts st.request.actions
      { s with book := s.book.remove Member.str id st }
    have hs := remove_sub (b := s.book) (id := id) (st := st)
    exact ⟨m, h1, fun id' st' h => hs.1 _ _ (g1 _ _ h), fun id' cs' k hc hk =>
      .inl ⟨cs', hs.2 _ _ (g2 _ _ hc), hk⟩, g3, fun h => by cases h⟩

/-- The batch of a confirmation. -/
theorem conf_batch {e : Env} {s s' : State} {id : Nat} {b : Batch}
    (h : ConfRel e s id s' (some b)) :
    ∃ m st cs, currentMember e s = some m ∧
      s.book.requests.get id = some st ∧ s.book.confs.get id = some cs ∧
      m.str ∉ cs ∧ s.numConfirmations ≤ cs.length % two32 + 1 ∧ b = st.request.toBatch e.self ∧
      Executable e.self { s with book := s.book.remove Member.str id st } st.request ∧
      s'.book.requests.get id = none ∧
      s' = applyActions { s with book := s.book.remove Member.str id st } st.request.actions := by
  cases h with
  | executed m st cs h1 h2 h3 h4 h5 h6 h7 h8 =>
    refine ⟨m, st, cs, h1, h2, h3, h4, h6, rfl, h7, ?_, rfl⟩
    obtain ⟨g1, _⟩ := apply_facts st.request.actions
      { s with book := s.book.remove Member.str id st }
    cases hg : (applyActions { s with book := s.book.remove Member.str id st }
        st.request.actions).book.requests.get id with
    | none => rfl
    | some st' =>
      have := g1 _ _ hg
      simp [Book.remove] at this

theorem added_get {e : Env} {s : State} {m : Member} {q : Request} {id : Nat}
    {st : Stored Member Request} (h : (added e s m q).book.requests.get id = some st) :
    s.book.requests.get id = some st ∨ (id = s.book.nonce ∧ st = ⟨q, m, e.now⟩) := by
  simp only [added, Book.add, UMap.get_insert] at h
  split at h
  · rename_i heq; cases h; exact .inr ⟨heq.symm, rfl⟩
  · exact .inl h

theorem added_confs {e : Env} {s : State} {m : Member} {q : Request} {id : Nat} {cs : List String}
    {k : String} (h : (added e s m q).book.confs.get id = some cs) (hk : k ∈ cs) :
    s.book.confs.get id = some cs := by
  simp only [added, Book.add, UMap.get_insert] at h
  split at h
  · cases h; simp at hk
  · exact h

/-- Summary of a successful call. -/
theorem exec_facts {e : Env} {s : State} {c : Call} {r : Res} (h : ExecRel e s c r) :
    ∃ m, currentMember e s = some m ∧ e.attachedDeposit = 0 ∧
    (∀ id st, r.c.book.requests.get id = some st → s.book.requests.get id = some st ∨
      (id = s.book.nonce ∧ r.id = id ∧ st.signer = m ∧ st.added = e.now ∧
        (c = .addRequest st.request ∨ c = .addRequestAndConfirm st.request))) ∧
    (∀ id cs k, r.c.book.confs.get id = some cs → k ∈ cs →
      (∃ cs0, s.book.confs.get id = some cs0 ∧ k ∈ cs0) ∨
      (k = m.str ∧ (c = .confirm id ∨ ∃ q, c = .addRequestAndConfirm q ∧ r.id = id))) ∧
    s.book.nonce ≤ r.c.book.nonce ∧
    (∀ q, (c = .addRequest q ∨ c = .addRequestAndConfirm q) →
      r.id = s.book.nonce ∧ r.c.book.nonce = s.book.nonce + 1) := by
  cases h with
  | add m q h1 h2 =>
    refine ⟨m, h2.member, h1, ?_, ?_, Nat.le_succ _, fun _ _ => ⟨rfl, rfl⟩⟩
    · intro id st hs
      rcases added_get hs with h | ⟨rfl, rfl⟩
      · exact .inl h
      · exact .inr ⟨rfl, rfl, rfl, rfl, .inl rfl⟩
    · intro id cs k hc hk; exact .inl ⟨cs, added_confs hc hk, hk⟩
  | addConfirm m q s' b h1 h2 h3 =>
    obtain ⟨m', g0, g1, g2, g3, _⟩ := conf_facts h3
    have hmm : m' = m := by
      have : currentMember e s = some m' := g0
      rw [h2.member] at this; exact (Option.some.inj this).symm
    subst hmm
    refine ⟨m', h2.member, h1, ?_, ?_, ?_, fun _ _ => ⟨rfl, g3⟩⟩
    · intro id st hs
      rcases added_get (g1 _ _ hs) with h | ⟨rfl, rfl⟩
      · exact .inl h
      · exact .inr ⟨rfl, rfl, rfl, rfl, .inr rfl⟩
    · intro id cs k hc hk
      rcases g2 id cs k hc hk with ⟨cs0, h, hk0⟩ | ⟨h, rfl⟩
      · exact .inl ⟨cs0, added_confs h hk0, hk0⟩
      · exact .inr ⟨h, .inr ⟨q, rfl, rfl⟩⟩
    · show s.book.nonce ≤ s'.book.nonce
      rw [g3]; exact Nat.le_succ _
  | delete id m st cs h1 h2 h3 h4 h5 h6 =>
    have hs := remove_sub (b := s.book) (id := id) (st := st)
    refine ⟨m, h2, h1, fun id' st' h => .inl (hs.1 _ _ h), fun id' cs' k hc hk =>
      .inl ⟨cs', hs.2 _ _ hc, hk⟩, Nat.le_refl _, ?_⟩
    rintro q (h | h) <;> cases h
  | confirm id s' b h1 h2 =>
    obtain ⟨m, g0, g1, g2, g3, _⟩ := conf_facts h2
    refine ⟨m, g0, h1, fun id' st' h => .inl (g1 _ _ h), ?_, le_of_eq g3.symm, ?_⟩
    · intro id' cs k hc hk
      rcases g2 id' cs k hc hk with h | ⟨h, rfl⟩
      · exact .inl h
      · exact .inr ⟨h, .inl rfl⟩
    · rintro q (h | h) <;> cases h

/-- Summary of a call that schedules a batch: `s1` is the state in which the confirmation counts (the
request was added before, or just now by the same call). -/
theorem exec_batch {e : Env} {s : State} {c : Call} {r : Res} {b : Batch} (h : ExecRel e s c r)
    (hb : r.batch = some b) :
    ∃ m s1 st cs, currentMember e s = some m ∧ ((s1 = s ∧ c = .confirm r.id) ∨
        (∃ q, s1 = added e s m q ∧ c = .addRequestAndConfirm q ∧ r.id = s.book.nonce)) ∧
      s1.book.requests.get r.id = some st ∧ s1.book.confs.get r.id = some cs ∧ m.str ∉ cs ∧
      s.numConfirmations ≤ cs.length % two32 + 1 ∧ b = st.request.toBatch e.self ∧
      Executable e.self { s1 with book := s1.book.remove Member.str r.id st } st.request ∧
      r.c.book.requests.get r.id = none ∧
      r.c = applyActions { s1 with book := s1.book.remove Member.str r.id st }
        st.request.actions := by
  cases h with
  | add m q h1 h2 => cases hb
  | addConfirm m q s' b' h1 h2 h3 =>
    simp only at hb; subst hb
    obtain ⟨m', st, cs, k0, k1, k2, k3, k4, k5, k6, k7, k8⟩ := conf_batch h3
    have hmm : m' = m := by
      have : currentMember e s = some m' := k0
      rw [h2.member] at this; exact (Option.some.inj this).symm
    subst hmm
    exact ⟨m', added e s m' q, st, cs, h2.member, .inr ⟨q, rfl, rfl, rfl⟩, k1, k2, k3, k4, k5, k6, k7,
      k8⟩
  | delete id m st cs h1 h2 h3 h4 h5 h6 => cases hb
  | confirm id s' b' h1 h2 =>
    simp only at hb; subst hb
    obtain ⟨m, st, cs, k0, k1, k2, k3, k4, k5, k6, k7, k8⟩ := conf_batch h2
    exact ⟨m, s, st, cs, k0, .inl ⟨rfl, rfl⟩, k1, k2, k3, k4, k5, k6, k7, k8⟩

/-- Stored requests and confirmations stem from successful calls of the history. -/
structure Hist (me : AccountId) (w0 : World) (evs : List Ev) : Prop where
  req : ∀ id st, (run me w0 evs).c.book.requests.get id = some st →
    Sometime me w0 evs (fun w ev => Adds me w ev st.signer id st.request ∧ w.now = st.added)
  conf : ∀ id cs k, (run me w0 evs).c.book.confs.get id = some cs → k ∈ cs →
    ∃ m : Member, k = m.str ∧ Sometime me w0 evs (fun w ev => Confirms me w ev m id)

theorem hist_run {self : AccountId} {ms : List Member} {n : Nat} {w0 : World}
    (hs : Started self ms n w0) (evs : List Ev) : Hist self w0 evs := by
  induction evs using List.reverseRecOn with
  | nil =>
    obtain ⟨_, _, h1, _⟩ := started_c hs
    refine ⟨fun id st h => ?_, fun id cs k h => ?_⟩
    · simp only [run] at h; rw [h1] at h; cases h
    · simp only [run] at h; rw [h1] at h; cases h
  | append_singleton l ev ih =>
    have mono : ∀ id cs k, (run self w0 l).c.book.confs.get id = some cs → k ∈ cs →
        ∃ m : Member, k = m.str ∧
          Sometime self w0 (l ++ [ev]) (fun w ev => Confirms self w ev m id) := by
      intro id cs k h hk
      obtain ⟨m, h1, h2⟩ := ih.conf id cs k h hk
      exact ⟨m, h1, h2.snoc _⟩
    cases ev with
    | tick dt =>
      refine ⟨fun id st h => ?_, fun id cs k h hk => ?_⟩
      · rw [run_snoc] at h; exact (ih.req id st h).snoc _
      · rw [run_snoc] at h; exact mono id cs k h hk
    | call who pk att host c =>
      rcases step_call (self := self) (w := run self w0 l) (who := who) (pk := pk) (att := att)
        (host := host) (c := c) with ⟨r, hr, heq⟩ | ⟨_, heq⟩
      · obtain ⟨m, g1, g2, g3, g4, _⟩ := exec_facts hr
        have ha : att = 0 := g2
        subst ha
        have hact : actor self who pk = m := (currentMember_ok.mp g1).1
        refine ⟨fun id st h => ?_, fun id cs k h hk => ?_⟩
        · rw [run_snoc, heq] at h
          rcases g3 id st h with h | ⟨h1, h2, h3, h4, h5⟩
          · exact (ih.req id st h).snoc _
          · refine Sometime.last ⟨⟨who, pk, host, c, r, by rw [h3]; exact hact, rfl, h5,
              exec_ok.mpr hr, h2⟩, h4.symm⟩
        · rw [run_snoc, heq] at h
          rcases g4 id cs k h hk with ⟨cs0, h1, h2⟩ | ⟨rfl, h1⟩
          · exact mono id cs0 k h1 h2
          · refine ⟨m, rfl, Sometime.last ⟨who, pk, host, r, hact, ?_⟩⟩
            rcases h1 with rfl | ⟨q, rfl, h2⟩
            · exact .inl ⟨rfl, exec_ok.mpr hr⟩
            · exact .inr ⟨q, rfl, exec_ok.mpr hr, h2⟩
      · refine ⟨fun id st h => ?_, fun id cs k h hk => ?_⟩
        · rw [run_snoc, heq] at h; exact (ih.req id st h).snoc _
        · rw [run_snoc, heq] at h; exact mono id cs k h hk

end Verif.Multisig2
