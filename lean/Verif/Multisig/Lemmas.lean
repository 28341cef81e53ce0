import Verif.Multisig.World

/-! # Inversion of the multisig methods and the consistency invariant -/

namespace Verif.Multisig

open Verif

theorem notPayable_ok {e : Env} {u : Unit} : notPayable e = .ok u ↔ e.attachedDeposit = 0 := by
  simp [notPayable]

theorem assertSelfRequest_ok {e : Env} {r : AccountId} {u : Unit} :
    assertSelfRequest e r = .ok u ↔ r = e.self := by simp [assertSelfRequest]

theorem assertOneActionOnly_ok {e : Env} {r : AccountId} {n : Nat} {u : Unit} :
    assertOneActionOnly e r n = .ok u ↔ r = e.self ∧ n = 1 := by
  simp [assertOneActionOnly, bind_ok, assertSelfRequest_ok]

/-- Effect of the actions on the contract state. -/
def applyActions (s : State) : List Action → State
  | [] => s
  | .deleteKey k :: t => applyActions { s with book := s.book.purge (fun k => k) k } t
  | .setNumConfirmations n :: t => applyActions { s with numConfirmations := n } t
  | .setActiveRequestsLimit n :: t => applyActions { s with limit := n } t
  | _ :: t => applyActions s t

theorem runActions_ok {e : Env} {rc : AccountId} {n : Nat} (l : List Action) {s s' : State}
    {acc acc' : List PAction} (hlen : acc.length + l.length = n) :
    runActions e rc n s acc l = .ok (s', acc') ↔
      (∀ a ∈ l, Allowed e.self rc n a) ∧ s' = applyActions s l ∧
        acc' = acc ++ l.filterMap Action.toP := by
  induction l generalizing s acc with
  | nil =>
    simp only [runActions, pure_ok, Prod.mk.injEq, List.not_mem_nil, false_implies, implies_true,
      true_and, applyActions, List.filterMap_nil, List.append_nil]
    constructor <;> rintro ⟨rfl, rfl⟩ <;> exact ⟨rfl, rfl⟩
  | cons a t ih =>
    have hstep : ∀ (s1 : State) (p : PAction), Action.toP a = some p →
        (runActions e rc n s1 (acc ++ [p]) t = .ok (s', acc') ↔
          (∀ a ∈ t, Allowed e.self rc n a) ∧ s' = applyActions s1 t ∧
            acc' = acc ++ (a :: t).filterMap Action.toP) := by
      intro s1 p hp
      rw [ih (by simp only [List.length_append, List.length_cons, List.length_nil] at hlen ⊢; omega),
        List.filterMap_cons_some hp]
      simp
    cases a with
    | transfer x =>
      rw [runActions, hstep _ _ rfl]
      simp [Allowed, applyActions]
    | createAccount =>
      rw [runActions, hstep _ _ rfl]
      simp [Allowed, applyActions]
    | deployContract c =>
      rw [runActions, hstep _ _ rfl]
      simp [Allowed, applyActions]
    | addKey k p =>
      have hk : Action.toP (.addKey k p) = some (keyAction k p) := by cases p <;> rfl
      simp only [runActions, bind_ok, assertSelfRequest_ok, hstep _ _ hk]
      simp only [List.mem_cons, forall_eq_or_imp, Allowed, applyActions]
      constructor
      · rintro ⟨_, h1, h2, h3, h4⟩; exact ⟨⟨h1, h2⟩, h3, h4⟩
      · rintro ⟨⟨h1, h2⟩, h3, h4⟩; exact ⟨(), h1, h2, h3, h4⟩
    | deleteKey k =>
      simp only [runActions, bind_ok, assertSelfRequest_ok]
      simp only [hstep _ (.deleteKey k) rfl]
      simp only [List.mem_cons, forall_eq_or_imp, Allowed, applyActions]
      constructor
      · rintro ⟨_, h1, h2, h3, h4⟩; exact ⟨⟨h1, h2⟩, h3, h4⟩
      · rintro ⟨⟨h1, h2⟩, h3, h4⟩; exact ⟨(), h1, h2, h3, h4⟩
    | functionCall m x d g =>
      rw [runActions, hstep _ _ rfl]
      simp [Allowed, applyActions]
    | setNumConfirmations k =>
      simp only [runActions, bind_ok, assertOneActionOnly_ok, pure_ok, Prod.mk.injEq]
      simp only [List.mem_cons, forall_eq_or_imp, Allowed, applyActions]
      have ht : n = 1 → t = [] ∧ acc = [] := by
        intro h1
        simp only [List.length_cons] at hlen
        exact ⟨List.length_eq_zero_iff.mp (by omega), List.length_eq_zero_iff.mp (by omega)⟩
      constructor
      · rintro ⟨_, ⟨h1, h2⟩, rfl, rfl⟩
        obtain ⟨rfl, rfl⟩ := ht h2
        exact ⟨⟨⟨h1, h2⟩, by simp⟩, rfl, rfl⟩
      · rintro ⟨⟨⟨h1, h2⟩, _⟩, rfl, rfl⟩
        obtain ⟨rfl, rfl⟩ := ht h2
        exact ⟨(), ⟨h1, h2⟩, rfl, rfl⟩
    | setActiveRequestsLimit k =>
      simp only [runActions, bind_ok, assertOneActionOnly_ok, pure_ok, Prod.mk.injEq]
      simp only [List.mem_cons, forall_eq_or_imp, Allowed, applyActions]
      have ht : n = 1 → t = [] ∧ acc = [] := by
        intro h1
        simp only [List.length_cons] at hlen
        exact ⟨List.length_eq_zero_iff.mp (by omega), List.length_eq_zero_iff.mp (by omega)⟩
      constructor
      · rintro ⟨_, ⟨h1, h2⟩, rfl, rfl⟩
        obtain ⟨rfl, rfl⟩ := ht h2
        exact ⟨⟨⟨h1, h2⟩, by simp⟩, rfl, rfl⟩
      · rintro ⟨⟨⟨h1, h2⟩, _⟩, rfl, rfl⟩
        obtain ⟨rfl, rfl⟩ := ht h2
        exact ⟨(), ⟨h1, h2⟩, rfl, rfl⟩

theorem executeRequest_ok {e : Env} {s s' : State} {q : Request} {b : Batch} :
    executeRequest e s q = .ok (s', b) ↔
      Executable e.self q ∧ e.hostOk = true ∧ s' = applyActions s q.actions ∧ b = q.toBatch := by
  simp only [executeRequest, bind_ok, require_ok, pure_ok, Prod.mk.injEq]
  constructor
  · rintro ⟨⟨s1, acc⟩, h1, _, h2, rfl, rfl⟩
    rw [runActions_ok _ (by simp)] at h1
    obtain ⟨h3, h4, h5⟩ := h1
    exact ⟨h3, h2, h4, by simp only [h5, List.nil_append]; rfl⟩
  · rintro ⟨h1, h2, rfl, rfl⟩
    exact ⟨(_, _), (runActions_ok _ (by simp)).mpr ⟨h1, rfl, rfl⟩, (), h2, rfl,
      by simp [Request.toBatch]⟩

theorem assertValidRequest_ok {e : Env} {s : State} {id : Nat}
    {x : Stored PublicKey Request × List PublicKey} :
    assertValidRequest e s id = .ok x ↔
      e.self = e.predecessor ∧ s.book.requests.get id = some x.1 ∧
        s.book.confs.get id = some x.2 := by
  obtain ⟨st, cs⟩ := x
  simp only [assertValidRequest, bind_ok, require_ok]
  constructor
  · rintro ⟨_, h1, h2⟩
    cases hr : s.book.requests.get id with
    | none => rw [hr] at h2; simp [throw_ok] at h2
    | some st' =>
      cases hc : s.book.confs.get id with
      | none => rw [hr, hc] at h2; simp [throw_ok] at h2
      | some cs' =>
        rw [hr, hc] at h2
        simp only [pure_ok, Prod.mk.injEq] at h2
        obtain ⟨rfl, rfl⟩ := h2
        exact ⟨h1, rfl, rfl⟩
  · rintro ⟨h1, h2, h3⟩
    exact ⟨(), h1, by simp only [h2, h3]; rfl⟩

/-- How `confirm` succeeds. -/
inductive ConfRel (e : Env) (s : State) (id : Nat) : State → Option Batch → Prop
  | stored (st : Stored PublicKey Request) (cs : List PublicKey) : e.self = e.predecessor →
      s.book.requests.get id = some st → s.book.confs.get id = some cs → e.signerPk ∉ cs →
      cs.length % two32 + 1 < two32 → cs.length % two32 + 1 < s.numConfirmations →
      ConfRel e s id { s with book := s.book.confirm id cs e.signerPk } none
  | executed (st : Stored PublicKey Request) (cs : List PublicKey) : e.self = e.predecessor →
      s.book.requests.get id = some st → s.book.confs.get id = some cs → e.signerPk ∉ cs →
      cs.length % two32 + 1 < two32 → s.numConfirmations ≤ cs.length % two32 + 1 →
      Executable e.self st.request → e.hostOk = true →
      ConfRel e s id
        (applyActions { s with book := s.book.remove (fun k => k) id st } st.request.actions)
        (some st.request.toBatch)

theorem confirm_ok {e : Env} {s s' : State} {id : Nat} {b : Option Batch} :
    confirm e s id = .ok (s', b) ↔ ConfRel e s id s' b := by
  simp only [confirm, bind_ok, require_ok, addU32_ok]
  constructor
  · rintro ⟨⟨st, cs⟩, h1, _, h2, num, ⟨h3, rfl⟩, h4⟩
    obtain ⟨g1, g2, g3⟩ := assertValidRequest_ok.mp h1
    simp only at g2 g3 h2 h3 h4
    by_cases hn : cs.length % two32 + 1 ≥ s.numConfirmations
    · rw [if_pos hn] at h4
      simp only [bind_ok, pure_ok, Prod.mk.injEq] at h4
      obtain ⟨⟨s1, b1⟩, h5, rfl, rfl⟩ := h4
      obtain ⟨h6, h7, rfl, rfl⟩ := executeRequest_ok.mp h5
      exact .executed st cs g1 g2 g3 h2 h3 hn h6 h7
    · rw [if_neg hn] at h4
      simp only [pure_ok, Prod.mk.injEq] at h4
      obtain ⟨rfl, rfl⟩ := h4
      exact .stored st cs g1 g2 g3 h2 h3 (by omega)
  · intro h
    cases h with
    | stored st cs h1 h2 h3 h4 h5 h6 =>
      refine ⟨(st, cs), assertValidRequest_ok.mpr ⟨h1, h2, h3⟩, (), h4, _, ⟨h5, rfl⟩, ?_⟩
      simp only
      rw [if_neg (by omega)]; rfl
    | executed st cs h1 h2 h3 h4 h5 h6 h7 h8 =>
      refine ⟨(st, cs), assertValidRequest_ok.mpr ⟨h1, h2, h3⟩, (), h4, _, ⟨h5, rfl⟩, ?_⟩
      simp only
      rw [if_pos h6, executeRequest_ok.mpr ⟨h7, h8, rfl, rfl⟩]
      rfl

/-- The state after adding a request. -/
def added (e : Env) (s : State) (q : Request) : State :=
  { s with book := s.book.add (fun k => k) ⟨q, e.signerPk, e.now⟩ }

/-- When a request may be added. -/
structure CanAdd (e : Env) (s : State) (q : Request) : Prop where
  range : q.actions.all Action.inRange = true
  self : e.self = e.predecessor
  cnt : (s.book.counts.get e.signerPk).getD 0 + 1 < two32
  lim : (s.book.counts.get e.signerPk).getD 0 + 1 ≤ s.limit
  nonce : s.book.nonce + 1 < two32

theorem addRequest_ok {e : Env} {s : State} {q : Request} {x : State × Nat} :
    addRequest e s q = .ok x ↔ CanAdd e s q ∧ x = (added e s q, s.book.nonce) := by
  simp only [addRequest, bind_ok, require_ok, addU32_ok, pure_ok]
  constructor
  · rintro ⟨_, h1, _, h2, n, ⟨h3, rfl⟩, _, h4, m, ⟨h5, rfl⟩, rfl⟩
    exact ⟨⟨h1, h2, h3, h4, h5⟩, rfl⟩
  · rintro ⟨⟨h1, h2, h3, h4, h5⟩, rfl⟩
    exact ⟨(), h1, (), h2, _, ⟨h3, rfl⟩, (), h4, _, ⟨h5, rfl⟩, rfl⟩

/-- How calls succeed. -/
inductive ExecRel (e : Env) (s : State) : Call → Res → Prop
  | add (q : Request) : e.attachedDeposit = 0 → CanAdd e s q →
      ExecRel e s (.addRequest q) ⟨added e s q, s.book.nonce, none⟩
  | addConfirm (q : Request) (s' : State) (b : Option Batch) : e.attachedDeposit = 0 →
      CanAdd e s q → ConfRel e (added e s q) s.book.nonce s' b →
      ExecRel e s (.addRequestAndConfirm q) ⟨s', s.book.nonce, b⟩
  | delete (id : Nat) (st : Stored PublicKey Request) (cs : List PublicKey) :
      e.attachedDeposit = 0 → e.self = e.predecessor → s.book.requests.get id = some st →
      s.book.confs.get id = some cs → st.added + requestCooldown < two64 →
      st.added + requestCooldown < e.now →
      ExecRel e s (.deleteRequest id)
        ⟨{ s with book := s.book.remove (fun k => k) id st }, id, none⟩
  | confirm (id : Nat) (s' : State) (b : Option Batch) : e.attachedDeposit = 0 →
      ConfRel e s id s' b → ExecRel e s (.confirm id) ⟨s', id, b⟩

theorem exec_ok {e : Env} {s : State} {c : Call} {r : Res} :
    exec e s c = .ok r ↔ ExecRel e s c r := by
  cases c with
  | addRequest q =>
    simp only [exec, bind_ok, notPayable_ok, addRequest_ok, pure_ok]
    constructor
    · rintro ⟨_, h1, x, ⟨h2, rfl⟩, rfl⟩; exact .add q h1 h2
    · rintro (⟨_, h1, h2⟩); exact ⟨(), h1, _, ⟨h2, rfl⟩, rfl⟩
  | addRequestAndConfirm q =>
    simp only [exec, bind_ok, notPayable_ok, addRequest_ok, pure_ok]
    constructor
    · rintro ⟨_, h1, x, ⟨h2, rfl⟩, ⟨s', b⟩, h3, rfl⟩
      exact .addConfirm q s' b h1 h2 (confirm_ok.mp h3)
    · intro h
      cases h with
      | addConfirm q s' b h1 h2 h3 => exact ⟨(), h1, _, ⟨h2, rfl⟩, (s', b), confirm_ok.mpr h3, rfl⟩
  | deleteRequest id =>
    simp only [exec, deleteRequest, bind_ok, notPayable_ok, require_ok, addU64_ok, pure_ok]
    constructor
    · rintro ⟨_, h1, s', ⟨⟨st, cs⟩, h2, t, ⟨h3, rfl⟩, _, h4, rfl⟩, rfl⟩
      obtain ⟨g1, g2, g3⟩ := assertValidRequest_ok.mp h2
      exact .delete id st cs h1 g1 g2 g3 h3 h4
    · intro h
      cases h with
      | delete id st cs h1 g1 g2 g3 h3 h4 =>
        exact ⟨(), h1, _, ⟨(st, cs), assertValidRequest_ok.mpr ⟨g1, g2, g3⟩, _, ⟨h3, rfl⟩, (), h4,
          rfl⟩, rfl⟩
  | confirm id =>
    simp only [exec, bind_ok, notPayable_ok, pure_ok]
    constructor
    · rintro ⟨_, h1, ⟨s', b⟩, h2, rfl⟩; exact .confirm id s' b h1 (confirm_ok.mp h2)
    · intro h
      cases h with
      | confirm id s' b h1 h2 => exact ⟨(), h1, (s', b), confirm_ok.mpr h2, rfl⟩

/-! ## The invariant -/

/-- Consistency of the state, with bounds. -/
structure MInv (s : State) : Prop where
  book : Book.Inv (fun k : PublicKey => k) s.book
  num : s.numConfirmations < two32
  lim : s.limit < two32
  len : ∀ id cs, s.book.confs.get id = some cs → cs.length + 1 < two32
  range : ∀ id st, s.book.requests.get id = some st → st.request.actions.all Action.inRange = true

theorem injId : Function.Injective (fun k : PublicKey => k) := fun _ _ h => h

/-- Removing requests keeps the invariant. -/
theorem MInv.weaken {s : State} (h : MInv s) {b : Book PublicKey PublicKey Request}
    (hb : Book.Inv (fun k : PublicKey => k) b)
    (h1 : ∀ id st, b.requests.get id = some st → s.book.requests.get id = some st)
    (h2 : ∀ id cs, b.confs.get id = some cs → s.book.confs.get id = some cs) :
    MInv { s with book := b } :=
  ⟨hb, h.num, h.lim, fun id cs hc => h.len id cs (h2 id cs hc), fun id st hs => h.range id st (h1 id st hs)⟩

theorem purge_sub (b : Book PublicKey PublicKey Request) (k : PublicKey) :
    (∀ id st, (b.purge (fun k => k) k).requests.get id = some st → b.requests.get id = some st) ∧
    (∀ id cs, (b.purge (fun k => k) k).confs.get id = some cs → b.confs.get id = some cs) := by
  constructor
  · intro id st h
    rw [Book.purge_get] at h
    cases hg : b.requests.get id with
    | none => rw [hg] at h; cases h
    | some st' =>
      rw [hg] at h; simp only at h
      split at h
      · cases h
      · exact h
  · intro id cs h
    rw [Book.purge_confs] at h
    cases hg : b.requests.get id with
    | none => rw [hg] at h; exact h
    | some st' =>
      rw [hg] at h; simp only at h
      split at h
      · cases h
      · exact h

theorem remove_sub {b : Book PublicKey PublicKey Request} {id : Nat}
    {st : Stored PublicKey Request} :
    (∀ id' st', (b.remove (fun k => k) id st).requests.get id' = some st' →
      b.requests.get id' = some st') ∧
    (∀ id' cs, (b.remove (fun k => k) id st).confs.get id' = some cs →
      b.confs.get id' = some cs) := by
  constructor
  · intro id' st' h
    simp only [Book.remove, UMap.get_remove] at h
    split at h
    · cases h
    · exact h
  · intro id' cs h
    simp only [Book.remove, UMap.get_remove] at h
    split at h
    · cases h
    · exact h

theorem MInv.apply {s : State} (h : MInv s) (l : List Action)
    (hl : l.all Action.inRange = true) : MInv (applyActions s l) := by
  induction l generalizing s with
  | nil => exact h
  | cons a t ih =>
    simp only [List.all_cons, Bool.and_eq_true] at hl
    cases a with
    | deleteKey k =>
      have hp := purge_sub s.book k
      exact ih (h.weaken (h.book.purge injId k) hp.1 hp.2) hl.2
    | setNumConfirmations n =>
      refine ih ?_ hl.2
      have : n < two32 := by simpa [Action.inRange] using hl.1
      exact ⟨h.book, this, h.lim, h.len, h.range⟩
    | setActiveRequestsLimit n =>
      refine ih ?_ hl.2
      have : n < two32 := by simpa [Action.inRange] using hl.1
      exact ⟨h.book, h.num, this, h.len, h.range⟩
    | transfer x => exact ih h hl.2
    | createAccount => exact ih h hl.2
    | deployContract x => exact ih h hl.2
    | addKey k p => exact ih h hl.2
    | functionCall m x d g => exact ih h hl.2

theorem MInv.add {e : Env} {s : State} {q : Request} (h : MInv s) (hc : CanAdd e s q) :
    MInv (added e s q) := by
  refine ⟨h.book.add injId _, h.num, h.lim, ?_, ?_⟩
  · intro id cs hcs
    simp only [added, Book.add, UMap.get_insert] at hcs
    split at hcs
    · cases hcs; simp [two32]
    · exact h.len id cs hcs
  · intro id st hst
    simp only [added, Book.add, UMap.get_insert] at hst
    split at hst
    · cases hst; exact hc.range
    · exact h.range id st hst

theorem MInv.conf {e : Env} {s s' : State} {id : Nat} {b : Option Batch} (h : MInv s)
    (hr : ConfRel e s id s' b) : MInv s' := by
  cases hr with
  | stored st cs h1 h2 h3 h4 h5 h6 =>
    refine ⟨h.book.confirm h3 h4, h.num, h.lim, ?_, h.range⟩
    intro id' cs' hc
    simp only [Book.confirm, UMap.get_insert] at hc
    split at hc
    · cases hc
      have h7 := h.len id cs h3
      have h8 := h.num
      rw [Nat.mod_eq_of_lt (by omega)] at h6
      simp only [List.length_append, List.length_cons, List.length_nil]
      omega
    · exact h.len id' cs' hc
  | executed st cs h1 h2 h3 h4 h5 h6 h7 h8 =>
    have hs := remove_sub (b := s.book) (id := id) (st := st)
    exact (h.weaken (h.book.remove injId h2) hs.1 hs.2).apply _ (h.range id st h2)

theorem MInv.exec {e : Env} {s : State} {c : Call} {r : Res} (h : MInv s)
    (hr : ExecRel e s c r) : MInv r.c := by
  cases hr with
  | add q h1 h2 => exact h.add h2
  | addConfirm q s' b h1 h2 h3 => exact (h.add h2).conf h3
  | delete id st cs h1 h2 h3 h4 h5 h6 =>
    have hs := remove_sub (b := s.book) (id := id) (st := st)
    exact h.weaken (h.book.remove injId h3) hs.1 hs.2
  | confirm id s' b h1 h2 => exact h.conf h2

theorem step_call {self : AccountId} {w : World} {who : AccountId} {pk : PublicKey} {att : Nat}
    {host : Bool} {c : Call} :
    (∃ r, ExecRel (mkEnv self w who pk att host) w.c c r ∧
      step self w (.call who pk att host c) = { w with c := r.c, issued := logged r w.issued }) ∨
    ((∀ r, ¬ ExecRel (mkEnv self w who pk att host) w.c c r) ∧
      step self w (.call who pk att host c) = w) := by
  simp only [step]
  cases hx : Multisig.exec (mkEnv self w who pk att host) w.c c with
  | ok r => exact .inl ⟨r, exec_ok.mp hx, rfl⟩
  | error m =>
    refine .inr ⟨fun r hr => ?_, rfl⟩
    rw [exec_ok.mpr hr] at hx; cases hx

theorem minv_step {self : AccountId} {w : World} (ev : Ev) (h : MInv w.c) :
    MInv (step self w ev).c := by
  cases ev with
  | call who pk att host c =>
    rcases step_call (self := self) (w := w) (who := who) (pk := pk) (att := att) (host := host)
      (c := c) with ⟨r, hr, heq⟩ | ⟨_, heq⟩
    · rw [heq]; exact h.exec hr
    · rw [heq]; exact h
  | tick dt => exact h

theorem minv_run {self : AccountId} {w : World} (evs : List Ev) (h : MInv w.c) :
    MInv (run self w evs).c := by
  induction evs generalizing w with
  | nil => exact h
  | cons ev t ih => exact ih (minv_step ev h)

theorem new_ok {n : Nat} {s : State} (h : new 0 false n = .ok s) :
    n < two32 ∧ s = ⟨n, ⟨0, .empty, .empty, .empty⟩, 12⟩ := by
  simp only [new, bind_ok, require_ok, pure_ok] at h
  obtain ⟨_, _, _, h1, _, _, rfl⟩ := h
  exact ⟨h1, rfl⟩

theorem started_minv {n : Nat} {w0 : World} (h : Started n w0) : MInv w0.c := by
  obtain ⟨c, now, hn, rfl⟩ := h
  obtain ⟨h1, rfl⟩ := new_ok hn
  refine ⟨⟨fun id => rfl, fun id st h => by simp at h, fun id cs h => by simp at h, fun k => rfl⟩,
    h1, (by decide : 12 < two32), fun id cs h => by simp at h, fun id st h => by simp at h⟩

theorem reachable_minv {self : AccountId} {n : Nat} {w : World} (h : Reachable self n w) :
    MInv w.c := by
  obtain ⟨w0, evs, hs, rfl⟩ := h
  exact minv_run evs (started_minv hs)

end Verif.Multisig
