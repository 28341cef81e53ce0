import Verif.Multisig2.World

/-! # Inversion of the multisig2 methods and the consistency invariant -/

namespace Verif.Multisig2

open Verif

/-! ## The text of a member determines the member -/

theorem str_data (m : Member) : m.str.toList = match m with
    | .key k => "{\"public_key\":\"".toList ++ (k.toList ++ "\"}".toList)
    | .account a => "{\"account_id\":\"".toList ++ (a.toList ++ "\"}".toList) := by
  cases m <;> simp [Member.str, String.toList_append]

theorem str_inj : Function.Injective Member.str := by
  intro a b h
  have h1 : a.str.toList = b.str.toList := by rw [h]
  rw [str_data, str_data] at h1
  cases a with
  | key k =>
    cases b with
    | key k' =>
      simp only at h1
      have h2 := List.append_cancel_left h1
      have h3 := List.append_cancel_right h2
      rw [String.toList_inj.mp h3]
    | account a' => simp at h1
  | account a =>
    cases b with
    | key k' => simp at h1
    | account a' =>
      simp only at h1
      have h2 := List.append_cancel_left h1
      have h3 := List.append_cancel_right h2
      rw [String.toList_inj.mp h3]

/-! ## Inversion -/

theorem notPayable_ok {e : Env} {u : Unit} : notPayable e = .ok u ↔ e.attachedDeposit = 0 := by
  simp [notPayable]

theorem assertSelfRequest_ok {e : Env} {r : AccountId} {u : Unit} :
    assertSelfRequest e r = .ok u ↔ r = e.self := by simp [assertSelfRequest]

theorem assertOneActionOnly_ok {e : Env} {r : AccountId} {n : Nat} {u : Unit} :
    assertOneActionOnly e r n = .ok u ↔ r = e.self ∧ n = 1 := by
  simp [assertOneActionOnly, bind_ok, assertSelfRequest_ok]

theorem deleteMember_ok {s : State} {acc : List PAction} {m : Member} {x : State × List PAction} :
    deleteMember s acc m = .ok x ↔ s.numConfirmations + 1 ≤ s.members.len ∧
      x = (applyAction s (.deleteMember m), acc ++ memberUnkeyAction m) := by
  simp only [deleteMember, bind_ok, subU_ok, require_ok, pure_ok]
  constructor
  · rintro ⟨l, ⟨h1, rfl⟩, _, h2, rfl⟩
    exact ⟨by omega, rfl⟩
  · rintro ⟨h1, rfl⟩
    exact ⟨_, ⟨by omega, rfl⟩, (), by omega, rfl⟩

theorem runActions_ok {e : Env} {rc : AccountId} {n : Nat} (l : List Action) {s s' : State}
    {acc' : List PAction} (pre : List Action) (hlen : pre.length + l.length = n) :
    runActions e rc n s (pre.filterMap (Action.toP e.self)) l = .ok (s', acc') ↔
      AllowedAll e.self rc n s l ∧ s' = applyActions s l ∧
        acc' = (pre ++ l).filterMap (Action.toP e.self) := by
  induction l generalizing s pre with
  | nil =>
    simp only [runActions, pure_ok, Prod.mk.injEq, AllowedAll, true_and, applyActions,
      List.append_nil]
    constructor <;> rintro ⟨rfl, rfl⟩ <;> exact ⟨rfl, rfl⟩
  | cons a t ih =>
    have hl : (pre ++ [a]).length + t.length = n := by
      simp only [List.length_append, List.length_cons, List.length_nil] at hlen ⊢; omega
    have hih := fun s1 => ih (s := s1) (pre ++ [a]) hl
    simp only [List.append_assoc, List.cons_append, List.nil_append, List.filterMap_append] at hih
    have hstep : ∀ (s1 : State) (ps : List PAction),
        [a].filterMap (Action.toP e.self) = ps →
        (runActions e rc n s1 (pre.filterMap (Action.toP e.self) ++ ps) t = .ok (s', acc') ↔
          AllowedAll e.self rc n s1 t ∧ s' = applyActions s1 t ∧
            acc' = (pre ++ a :: t).filterMap (Action.toP e.self)) := by
      intro s1 ps hp
      rw [← hp, hih s1]
      simp only [List.filterMap_append]
    cases a with
    | transfer x =>
      rw [runActions, hstep _ [.transfer x] rfl]
      simp [AllowedAll, Allowed, applyActions, applyAction]
    | createAccount =>
      rw [runActions, hstep _ [.createAccount] rfl]
      simp [AllowedAll, Allowed, applyActions, applyAction]
    | deployContract c =>
      rw [runActions, hstep _ [.deployContract c] rfl]
      simp [AllowedAll, Allowed, applyActions, applyAction]
    | addMember m =>
      have hm : [Action.addMember m].filterMap (Action.toP e.self) = memberKeyAction e.self m := by
        cases m <;> rfl
      simp only [runActions, bind_ok, assertSelfRequest_ok, addMember, hstep _ _ hm]
      simp only [AllowedAll, Allowed, applyActions, applyAction]
      constructor
      · rintro ⟨_, h1, h2, h3, h4⟩; exact ⟨⟨h1, h2⟩, h3, h4⟩
      · rintro ⟨⟨h1, h2⟩, h3, h4⟩; exact ⟨(), h1, h2, h3, h4⟩
    | deleteMember m =>
      have hm : [Action.deleteMember m].filterMap (Action.toP e.self) = memberUnkeyAction m := by
        cases m <;> rfl
      simp only [runActions, bind_ok, assertSelfRequest_ok, deleteMember_ok]
      simp only [AllowedAll, Allowed, applyActions]
      constructor
      · rintro ⟨_, h1, x, ⟨h2, rfl⟩, h3⟩
        obtain ⟨h4, h5, h6⟩ := (hstep _ _ hm).mp h3
        exact ⟨⟨⟨h1, h2⟩, h4⟩, h5, h6⟩
      · rintro ⟨⟨⟨h1, h2⟩, h4⟩, h5, h6⟩
        exact ⟨(), h1, _, ⟨h2, rfl⟩, (hstep _ _ hm).mpr ⟨h4, h5, h6⟩⟩
    | addKey k p =>
      have hk : [Action.addKey k p].filterMap (Action.toP e.self) = [keyAction k p] := by
        cases p <;> rfl
      simp only [runActions, bind_ok, assertSelfRequest_ok, hstep _ _ hk]
      simp only [AllowedAll, Allowed, applyActions, applyAction]
      constructor
      · rintro ⟨_, h1, h2, h3, h4⟩; exact ⟨⟨h1, h2⟩, h3, h4⟩
      · rintro ⟨⟨h1, h2⟩, h3, h4⟩; exact ⟨(), h1, h2, h3, h4⟩
    | functionCall m x d g =>
      rw [runActions, hstep _ [.functionCall m x d g] rfl]
      simp [AllowedAll, Allowed, applyActions, applyAction]
    | setNumConfirmations k =>
      simp only [runActions, bind_ok, assertOneActionOnly_ok, pure_ok, Prod.mk.injEq]
      simp only [AllowedAll, Allowed, applyActions, applyAction]
      have ht : n = 1 → t = [] ∧ pre = [] := by
        intro h1
        simp only [List.length_cons] at hlen
        exact ⟨List.length_eq_zero_iff.mp (by omega), List.length_eq_zero_iff.mp (by omega)⟩
      constructor
      · rintro ⟨_, ⟨h1, h2⟩, rfl, rfl⟩
        obtain ⟨rfl, rfl⟩ := ht h2
        exact ⟨⟨⟨h1, h2⟩, trivial⟩, rfl, rfl⟩
      · rintro ⟨⟨⟨h1, h2⟩, _⟩, rfl, rfl⟩
        obtain ⟨rfl, rfl⟩ := ht h2
        exact ⟨(), ⟨h1, h2⟩, rfl, rfl⟩
    | setActiveRequestsLimit k =>
      simp only [runActions, bind_ok, assertOneActionOnly_ok, pure_ok, Prod.mk.injEq]
      simp only [AllowedAll, Allowed, applyActions, applyAction]
      have ht : n = 1 → t = [] ∧ pre = [] := by
        intro h1
        simp only [List.length_cons] at hlen
        exact ⟨List.length_eq_zero_iff.mp (by omega), List.length_eq_zero_iff.mp (by omega)⟩
      constructor
      · rintro ⟨_, ⟨h1, h2⟩, rfl, rfl⟩
        obtain ⟨rfl, rfl⟩ := ht h2
        exact ⟨⟨⟨h1, h2⟩, trivial⟩, rfl, rfl⟩
      · rintro ⟨⟨⟨h1, h2⟩, _⟩, rfl, rfl⟩
        obtain ⟨rfl, rfl⟩ := ht h2
        exact ⟨(), ⟨h1, h2⟩, rfl, rfl⟩

theorem executeRequest_ok {e : Env} {s s' : State} {q : Request} {b : Batch} :
    executeRequest e s q = .ok (s', b) ↔
      Executable e.self s q ∧ e.hostOk = true ∧ s' = applyActions s q.actions ∧
        b = q.toBatch e.self := by
  have key := fun s' acc => runActions_ok (e := e) (rc := q.receiver) (n := q.actions.length)
    q.actions (s := s) (s' := s') (acc' := acc) [] (by simp)
  simp only [List.filterMap_nil, List.nil_append] at key
  simp only [executeRequest, bind_ok, require_ok, pure_ok, Prod.mk.injEq]
  constructor
  · rintro ⟨⟨s1, acc⟩, h1, _, h2, rfl, rfl⟩
    rw [key] at h1
    obtain ⟨h3, h4, h5⟩ := h1
    exact ⟨h3, h2, h4, by simp only [h5]; rfl⟩
  · rintro ⟨h1, h2, rfl, rfl⟩
    exact ⟨(_, _), (key _ _).mpr ⟨h1, rfl, rfl⟩, (), h2, rfl, rfl⟩

theorem contains_iff {s : State} {m : Member} :
    s.members.contains m = true ↔ m ∈ getMembers s := by
  unfold getMembers UMap.contains
  rw [UMap.mem_keys, Option.isSome_iff_exists]

theorem currentMember_ok {e : Env} {s : State} {m : Member} :
    currentMember e s = some m ↔ actor e.self e.predecessor e.signerPk = m ∧ m ∈ getMembers s := by
  unfold currentMember
  show (if s.members.contains (actor e.self e.predecessor e.signerPk) = true then _ else none) = _ ↔ _
  by_cases h : s.members.contains (actor e.self e.predecessor e.signerPk) = true
  · rw [if_pos h]
    rw [contains_iff] at h
    constructor
    · intro he; cases he; exact ⟨rfl, h⟩
    · rintro ⟨rfl, _⟩; rfl
  · rw [if_neg h]
    rw [contains_iff] at h
    constructor
    · intro he; cases he
    · rintro ⟨rfl, h2⟩; exact absurd h2 h

theorem assertValidRequest_ok {e : Env} {s : State} {id : Nat}
    {x : Member × Stored Member Request × List String} :
    assertValidRequest e s id = .ok x ↔
      currentMember e s = some x.1 ∧ s.book.requests.get id = some x.2.1 ∧
        s.book.confs.get id = some x.2.2 := by
  obtain ⟨m, st, cs⟩ := x
  simp only [assertValidRequest]
  constructor
  · intro h2
    cases hm : currentMember e s with
    | none => rw [hm] at h2; simp [throw_ok] at h2
    | some m' =>
      cases hr : s.book.requests.get id with
      | none => rw [hm, hr] at h2; simp [throw_ok] at h2
      | some st' =>
        cases hc : s.book.confs.get id with
        | none => rw [hm, hr, hc] at h2; simp [throw_ok] at h2
        | some cs' =>
          rw [hm, hr, hc] at h2
          simp only [pure_ok, Prod.mk.injEq] at h2
          obtain ⟨rfl, rfl, rfl⟩ := h2
          exact ⟨rfl, rfl, rfl⟩
  · rintro ⟨h1, h2, h3⟩
    simp only [h1, h2, h3]; rfl

/-- How `confirm` succeeds. -/
inductive ConfRel (e : Env) (s : State) (id : Nat) : State → Option Batch → Prop
  | stored (m : Member) (st : Stored Member Request) (cs : List String) :
      currentMember e s = some m →
      s.book.requests.get id = some st → s.book.confs.get id = some cs → m.str ∉ cs →
      cs.length % two32 + 1 < two32 → cs.length % two32 + 1 < s.numConfirmations →
      ConfRel e s id { s with book := s.book.confirm id cs m.str } none
  | executed (m : Member) (st : Stored Member Request) (cs : List String) :
      currentMember e s = some m →
      s.book.requests.get id = some st → s.book.confs.get id = some cs → m.str ∉ cs →
      cs.length % two32 + 1 < two32 → s.numConfirmations ≤ cs.length % two32 + 1 →
      Executable e.self { s with book := s.book.remove Member.str id st } st.request →
      e.hostOk = true →
      ConfRel e s id
        (applyActions { s with book := s.book.remove Member.str id st } st.request.actions)
        (some (st.request.toBatch e.self))

theorem confirm_ok {e : Env} {s s' : State} {id : Nat} {b : Option Batch} :
    confirm e s id = .ok (s', b) ↔ ConfRel e s id s' b := by
  simp only [confirm, bind_ok, require_ok, addU32_ok]
  constructor
  · rintro ⟨⟨m, st, cs⟩, h1, _, h2, num, ⟨h3, rfl⟩, h4⟩
    obtain ⟨g1, g2, g3⟩ := assertValidRequest_ok.mp h1
    simp only at g1 g2 g3 h2 h3 h4
    by_cases hn : cs.length % two32 + 1 ≥ s.numConfirmations
    · rw [if_pos hn] at h4
      simp only [bind_ok, pure_ok, Prod.mk.injEq] at h4
      obtain ⟨⟨s1, b1⟩, h5, rfl, rfl⟩ := h4
      obtain ⟨h6, h7, rfl, rfl⟩ := executeRequest_ok.mp h5
      exact .executed m st cs g1 g2 g3 h2 h3 hn h6 h7
    · rw [if_neg hn] at h4
      simp only [pure_ok, Prod.mk.injEq] at h4
      obtain ⟨rfl, rfl⟩ := h4
      exact .stored m st cs g1 g2 g3 h2 h3 (by omega)
  · intro h
    cases h with
    | stored m st cs h1 h2 h3 h4 h5 h6 =>
      refine ⟨(m, st, cs), assertValidRequest_ok.mpr ⟨h1, h2, h3⟩, (), h4, _, ⟨h5, rfl⟩, ?_⟩
      simp only
      rw [if_neg (by omega)]; rfl
    | executed m st cs h1 h2 h3 h4 h5 h6 h7 h8 =>
      refine ⟨(m, st, cs), assertValidRequest_ok.mpr ⟨h1, h2, h3⟩, (), h4, _, ⟨h5, rfl⟩, ?_⟩
      simp only
      rw [if_pos h6, executeRequest_ok.mpr ⟨h7, h8, rfl, rfl⟩]
      rfl

/-- The state after `m` adds a request. -/
def added (e : Env) (s : State) (m : Member) (q : Request) : State :=
  { s with book := s.book.add Member.str ⟨q, m, e.now⟩ }

/-- When a request may be added. -/
structure CanAdd (e : Env) (s : State) (m : Member) (q : Request) : Prop where
  range : q.actions.all Action.inRange = true
  member : currentMember e s = some m
  cnt : (s.book.counts.get m.str).getD 0 + 1 < two32
  lim : (s.book.counts.get m.str).getD 0 + 1 ≤ s.limit
  nonce : s.book.nonce + 1 < two32

theorem addRequest_ok {e : Env} {s : State} {q : Request} {x : State × Nat} :
    addRequest e s q = .ok x ↔ ∃ m, CanAdd e s m q ∧ x = (added e s m q, s.book.nonce) := by
  simp only [addRequest, bind_ok, require_ok]
  constructor
  · rintro ⟨_, h1, h2⟩
    cases hm : currentMember e s with
    | none => rw [hm] at h2; simp [throw_ok] at h2
    | some m =>
      rw [hm] at h2
      simp only [bind_ok, require_ok, addU32_ok, pure_ok] at h2
      obtain ⟨n, ⟨h3, rfl⟩, _, h4, k, ⟨h5, rfl⟩, rfl⟩ := h2
      exact ⟨m, ⟨h1, hm, h3, h4, h5⟩, rfl⟩
  · rintro ⟨m, ⟨h1, h2, h3, h4, h5⟩, rfl⟩
    refine ⟨(), h1, ?_⟩
    rw [h2]
    simp only [bind_ok, require_ok, addU32_ok, pure_ok]
    exact ⟨_, ⟨h3, rfl⟩, (), h4, _, ⟨h5, rfl⟩, rfl⟩

/-- How calls succeed. -/
inductive ExecRel (e : Env) (s : State) : Call → Res → Prop
  | add (m : Member) (q : Request) : e.attachedDeposit = 0 → CanAdd e s m q →
      ExecRel e s (.addRequest q) ⟨added e s m q, s.book.nonce, none⟩
  | addConfirm (m : Member) (q : Request) (s' : State) (b : Option Batch) : e.attachedDeposit = 0 →
      CanAdd e s m q → ConfRel e (added e s m q) s.book.nonce s' b →
      ExecRel e s (.addRequestAndConfirm q) ⟨s', s.book.nonce, b⟩
  | delete (id : Nat) (m : Member) (st : Stored Member Request) (cs : List String) :
      e.attachedDeposit = 0 → currentMember e s = some m → s.book.requests.get id = some st →
      s.book.confs.get id = some cs → st.added + requestCooldown < two64 →
      st.added + requestCooldown < e.now →
      ExecRel e s (.deleteRequest id)
        ⟨{ s with book := s.book.remove Member.str id st }, id, none⟩
  | confirm (id : Nat) (s' : State) (b : Option Batch) : e.attachedDeposit = 0 →
      ConfRel e s id s' b → ExecRel e s (.confirm id) ⟨s', id, b⟩

theorem exec_ok {e : Env} {s : State} {c : Call} {r : Res} :
    exec e s c = .ok r ↔ ExecRel e s c r := by
  cases c with
  | addRequest q =>
    simp only [exec, bind_ok, notPayable_ok, addRequest_ok, pure_ok]
    constructor
    · rintro ⟨_, h1, x, ⟨m, h2, rfl⟩, rfl⟩; exact .add m q h1 h2
    · intro h
      cases h with
      | add m q h1 h2 => exact ⟨(), h1, _, ⟨m, h2, rfl⟩, rfl⟩
  | addRequestAndConfirm q =>
    simp only [exec, bind_ok, notPayable_ok, addRequest_ok, pure_ok]
    constructor
    · rintro ⟨_, h1, x, ⟨m, h2, rfl⟩, ⟨s', b⟩, h3, rfl⟩
      exact .addConfirm m q s' b h1 h2 (confirm_ok.mp h3)
    · intro h
      cases h with
      | addConfirm m q s' b h1 h2 h3 =>
        exact ⟨(), h1, _, ⟨m, h2, rfl⟩, (s', b), confirm_ok.mpr h3, rfl⟩
  | deleteRequest id =>
    simp only [exec, deleteRequest, bind_ok, notPayable_ok, require_ok, addU64_ok, pure_ok]
    constructor
    · rintro ⟨_, h1, s', ⟨⟨m, st, cs⟩, h2, t, ⟨h3, rfl⟩, _, h4, rfl⟩, rfl⟩
      obtain ⟨g1, g2, g3⟩ := assertValidRequest_ok.mp h2
      exact .delete id m st cs h1 g1 g2 g3 h3 h4
    · intro h
      cases h with
      | delete id m st cs h1 g1 g2 g3 h3 h4 =>
        exact ⟨(), h1, _, ⟨(m, st, cs), assertValidRequest_ok.mpr ⟨g1, g2, g3⟩, _, ⟨h3, rfl⟩, (), h4,
          rfl⟩, rfl⟩
  | confirm id =>
    simp only [exec, bind_ok, notPayable_ok, pure_ok]
    constructor
    · rintro ⟨_, h1, ⟨s', b⟩, h2, rfl⟩; exact .confirm id s' b h1 (confirm_ok.mp h2)
    · intro h
      cases h with
      | confirm id s' b h1 h2 => exact ⟨(), h1, (s', b), confirm_ok.mpr h2, rfl⟩

/-! ## The invariant -/

/-- Consistency of the state, with bounds. -/
structure MInv (s : State) : Prop where
  book : Book.Inv Member.str s.book
  num : s.numConfirmations < two32
  lim : s.limit < two32
  len : ∀ id cs, s.book.confs.get id = some cs → cs.length + 1 < two32
  range : ∀ id st, s.book.requests.get id = some st → st.request.actions.all Action.inRange = true
  author : ∀ id st, s.book.requests.get id = some st → st.signer ∈ getMembers s

theorem purge_sub (b : Book Member String Request) (m : Member) :
    (∀ id st, (b.purge Member.str m).requests.get id = some st →
      b.requests.get id = some st ∧ st.signer ≠ m) ∧
    (∀ id cs, (b.purge Member.str m).confs.get id = some cs → b.confs.get id = some cs) := by
  constructor
  · intro id st h
    rw [Book.purge_get] at h
    cases hg : b.requests.get id with
    | none => rw [hg] at h; cases h
    | some st' =>
      rw [hg] at h; simp only at h
      split at h
      · cases h
      · rename_i hne; cases h; exact ⟨rfl, hne⟩
  · intro id cs h
    rw [Book.purge_confs] at h
    cases hg : b.requests.get id with
    | none => rw [hg] at h; exact h
    | some st' =>
      rw [hg] at h; simp only at h
      split at h
      · cases h
      · exact h

theorem remove_sub {b : Book Member String Request} {id : Nat} {st : Stored Member Request} :
    (∀ id' st', (b.remove Member.str id st).requests.get id' = some st' →
      b.requests.get id' = some st') ∧
    (∀ id' cs, (b.remove Member.str id st).confs.get id' = some cs →
      b.confs.get id' = some cs) := by
  constructor
  · intro id' st' h
    simp only [Book.remove, UMap.get_remove] at h
    split at h
    · cases h
    · exact h
  · intro id' cs h
    simp only [Book.remove, UMap.get_remove] at h
    split at h
    · cases h
    · exact h

theorem MInv.removed {s : State} (h : MInv s) {id : Nat} {st : Stored Member Request}
    (hs : s.book.requests.get id = some st) :
    MInv { s with book := s.book.remove Member.str id st } := by
  have hr := remove_sub (b := s.book) (id := id) (st := st)
  exact ⟨h.book.remove str_inj hs, h.num, h.lim, fun id cs hc => h.len id cs (hr.2 id cs hc),
    fun id st hs => h.range id st (hr.1 id st hs), fun id st hs => h.author id st (hr.1 id st hs)⟩

theorem MInv.applyAction {s : State} (h : MInv s) (a : Action) (ha : a.inRange = true) :
    MInv (applyAction s a) := by
  cases a with
  | addMember m =>
    refine ⟨h.book, h.num, h.lim, h.len, h.range, fun id st hs => ?_⟩
    have := h.author id st hs
    simp only [getMembers, Multisig2.applyAction, UMap.mem_keys_insert] at this ⊢
    exact .inr this
  | deleteMember m =>
    obtain ⟨p1, p2⟩ := purge_sub s.book m
    refine ⟨h.book.purge str_inj m, h.num, h.lim, fun id cs hc => h.len id cs (p2 id cs hc),
      fun id st hs => h.range id st (p1 id st hs).1, fun id st hs => ?_⟩
    obtain ⟨g1, g2⟩ := p1 id st hs
    have := h.author id st g1
    simp only [getMembers, Multisig2.applyAction, UMap.mem_keys_remove] at this ⊢
    exact ⟨g2, this⟩
  | setNumConfirmations n =>
    have : n < two32 := by simpa [Action.inRange] using ha
    exact ⟨h.book, this, h.lim, h.len, h.range, h.author⟩
  | setActiveRequestsLimit n =>
    have : n < two32 := by simpa [Action.inRange] using ha
    exact ⟨h.book, h.num, this, h.len, h.range, h.author⟩
  | transfer x => exact h
  | createAccount => exact h
  | deployContract x => exact h
  | addKey k p => exact h
  | functionCall m x d g => exact h

theorem MInv.apply {s : State} (h : MInv s) (l : List Action)
    (hl : l.all Action.inRange = true) : MInv (applyActions s l) := by
  induction l generalizing s with
  | nil => exact h
  | cons a t ih =>
    simp only [List.all_cons, Bool.and_eq_true] at hl
    exact ih (h.applyAction a hl.1) hl.2

theorem MInv.add {e : Env} {s : State} {m : Member} {q : Request} (h : MInv s)
    (hc : CanAdd e s m q) : MInv (added e s m q) := by
  refine ⟨h.book.add str_inj _, h.num, h.lim, ?_, ?_, ?_⟩
  · intro id cs hcs
    simp only [added, Book.add, UMap.get_insert] at hcs
    split at hcs
    · cases hcs; simp [two32]
    · exact h.len id cs hcs
  · intro id st hst
    simp only [added, Book.add, UMap.get_insert] at hst
    split at hst
    · cases hst; exact hc.range
    · exact h.range id st hst
  · intro id st hst
    simp only [added, Book.add, UMap.get_insert] at hst
    split at hst
    · cases hst; exact (currentMember_ok.mp hc.member).2
    · exact h.author id st hst

theorem MInv.conf {e : Env} {s s' : State} {id : Nat} {b : Option Batch} (h : MInv s)
    (hr : ConfRel e s id s' b) : MInv s' := by
  cases hr with
  | stored m st cs h1 h2 h3 h4 h5 h6 =>
    refine ⟨h.book.confirm h3 h4, h.num, h.lim, ?_, h.range, h.author⟩
    intro id' cs' hc
    simp only [Book.confirm, UMap.get_insert] at hc
    split at hc
    · cases hc
      have h7 := h.len id cs h3
      have h8 := h.num
      rw [Nat.mod_eq_of_lt (by omega)] at h6
      simp only [List.length_append, List.length_cons, List.length_nil]
      omega
    · exact h.len id' cs' hc
  | executed m st cs h1 h2 h3 h4 h5 h6 h7 h8 => exact (h.removed h2).apply _ (h.range id st h2)

theorem MInv.exec {e : Env} {s : State} {c : Call} {r : Res} (h : MInv s)
    (hr : ExecRel e s c r) : MInv r.c := by
  cases hr with
  | add m q h1 h2 => exact h.add h2
  | addConfirm m q s' b h1 h2 h3 => exact (h.add h2).conf h3
  | delete id m st cs h1 h2 h3 h4 h5 h6 => exact h.removed h3
  | confirm id s' b h1 h2 => exact h.conf h2

theorem step_call {self : AccountId} {w : World} {who : AccountId} {pk : PublicKey} {att : Nat}
    {host : Bool} {c : Call} :
    (∃ r, ExecRel (mkEnv self w who pk att host) w.c c r ∧
      step self w (.call who pk att host c) = { w with c := r.c, issued := logged r w.issued }) ∨
    ((∀ r, ¬ ExecRel (mkEnv self w who pk att host) w.c c r) ∧
      step self w (.call who pk att host c) = w) := by
  simp only [step]
  cases hx : Multisig2.exec (mkEnv self w who pk att host) w.c c with
  | ok r => exact .inl ⟨r, exec_ok.mp hx, rfl⟩
  | error m =>
    refine .inr ⟨fun r hr => ?_, rfl⟩
    rw [exec_ok.mpr hr] at hx; cases hx

theorem minv_step {self : AccountId} {w : World} (ev : Ev) (h : MInv w.c) :
    MInv (step self w ev).c := by
  cases ev with
  | call who pk att host c =>
    rcases step_call (self := self) (w := w) (who := who) (pk := pk) (att := att) (host := host)
      (c := c) with ⟨r, hr, heq⟩ | ⟨_, heq⟩
    · rw [heq]; exact h.exec hr
    · rw [heq]; exact h
  | tick dt => exact h

theorem minv_run {self : AccountId} {w : World} (evs : List Ev) (h : MInv w.c) :
    MInv (run self w evs).c := by
  induction evs generalizing w with
  | nil => exact h
  | cons ev t ih => exact ih (minv_step ev h)

/-! ## Initialization -/

/-- The members after inserting a list. -/
def insertAll (s : UMap Member Unit) : List Member → UMap Member Unit
  | [] => s
  | m :: t => insertAll (s.insert m ()) t

theorem addMembers_eq (self : AccountId) (l : List Member) (s : State) (acc : List PAction) :
    addMembers self s acc l =
      ({ s with members := insertAll s.members l }, acc ++ l.flatMap (memberKeyAction self)) := by
  induction l generalizing s acc with
  | nil => simp [addMembers, insertAll]
  | cons m t ih =>
    simp only [addMembers, addMember, ih, insertAll, List.flatMap_cons, List.append_assoc]

theorem mem_insertAll {l : List Member} {s : UMap Member Unit} {m : Member} :
    m ∈ (insertAll s l).keys ↔ m ∈ s.keys ∨ m ∈ l := by
  induction l generalizing s with
  | nil => simp [insertAll]
  | cons a t ih =>
    simp only [insertAll, ih, UMap.mem_keys_insert, List.mem_cons]
    constructor
    · rintro ((h | h) | h)
      · exact .inr (.inl (by first | exact h.symm | exact h))
      · exact .inl h
      · exact .inr (.inr h)
    · rintro (h | h | h)
      · exact .inl (.inr h)
      · exact .inl (.inl (by first | exact h.symm | exact h))
      · exact .inr h

theorem new_ok {e : Env} {ex : Bool} {ms : List Member} {n : Nat} {x : State × Batch} :
    new e ex ms n = .ok x ↔ e.attachedDeposit = 0 ∧ n < two32 ∧ ex = false ∧ n ≤ ms.length ∧
      e.hostOk = true ∧
      x = (⟨insertAll .empty ms, n, ⟨0, .empty, .empty, .empty⟩, 12⟩,
        ⟨e.self, ms.flatMap (memberKeyAction e.self)⟩) := by
  simp only [new, bind_ok, require_ok, notPayable_ok, addMembers_eq, pure_ok, List.nil_append]
  constructor
  · rintro ⟨_, h1, _, h2, _, h3, _, h4, _, h5, rfl⟩
    exact ⟨h1, h2, h3, h4, h5, rfl⟩
  · rintro ⟨h1, h2, h3, h4, h5, rfl⟩
    exact ⟨(), h1, (), h2, (), h3, (), h4, (), h5, rfl⟩

theorem started_c {self : AccountId} {ms : List Member} {n : Nat} {w0 : World}
    (h : Started self ms n w0) : n < two32 ∧ n ≤ ms.length ∧
      w0.c = ⟨insertAll .empty ms, n, ⟨0, .empty, .empty, .empty⟩, 12⟩ ∧ w0.issued = [] := by
  obtain ⟨c, b, now, who, pk, hn, rfl⟩ := h
  obtain ⟨_, h1, _, h2, _, h3⟩ := new_ok.mp hn
  cases h3
  exact ⟨h1, h2, rfl, rfl⟩

theorem started_minv {self : AccountId} {ms : List Member} {n : Nat} {w0 : World}
    (h : Started self ms n w0) : MInv w0.c := by
  obtain ⟨h1, _, h2, _⟩ := started_c h
  rw [h2]
  exact ⟨⟨fun id => rfl, fun id st h => by simp at h, fun id cs h => by simp at h, fun k => rfl⟩,
    h1, (by decide : 12 < two32), fun id cs h => by simp at h, fun id st h => by simp at h,
    fun id st h => by simp at h⟩

theorem reachable_minv {self : AccountId} {ms : List Member} {n : Nat} {w : World}
    (h : Reachable self ms n w) : MInv w.c := by
  obtain ⟨w0, evs, hs, rfl⟩ := h
  exact minv_run evs (started_minv hs)

end Verif.Multisig2
