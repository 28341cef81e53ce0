import Verif.Multisig2.Props2

/-!
# Multisig2: initialization, adding, persistence of requests (C80 to C82)
-/

namespace Verif.Multisig2

open Verif

/-! ## C80 -/

/-- The keys of the key members, in order. -/
def memberKeys (ms : List Member) : List PublicKey :=
  ms.filterMap (fun m => match m with | .key k => some k | .account _ => none)

/-- **C80.** `new` succeeds exactly without deposit, on a contract without state, with a `u32` threshold
of at most the length of the list of members, if the host takes the batch. Then the members are those
of the list, the threshold is as given, every member may have twelve requests, nothing has been
requested, and the account is sent one access key for each key member: without allowance limit, for
this contract only and for four method names (one of which does not exist, see C49). -/
theorem C80_new_exact (e : Env) (ex : Bool) (ms : List Member) (n : Nat) :
    ((∃ x, new e ex ms n = .ok x) ↔ e.attachedDeposit = 0 ∧ ex = false ∧ n < 2 ^ 32 ∧
      n ≤ ms.length ∧ e.hostOk = true) ∧
    ∀ s b, new e ex ms n = .ok (s, b) → (∀ m, m ∈ getMembers s ↔ m ∈ ms) ∧
      getNumConfirmations s = n ∧ s.limit = 12 ∧ getRequestNonce s = 0 ∧ listRequestIds s = [] ∧
      (∀ id, getRequest s id = .error "No such request") ∧
      (∀ id, getConfirmations s id = .error "No such request") ∧
      (∀ m, getNumRequestsPerMember s m = 0) ∧
      b = ⟨e.self, (memberKeys ms).map (fun k => .addAccessKey k 0 e.self
        "add_request,delete_request,confirm,add_and_confirm_request")⟩ := by
  have h32 : two32 = 2 ^ 32 := rfl
  constructor
  · simp only [new_ok, h32]
    constructor
    · rintro ⟨x, h1, h2, h3, h4, h5, _⟩; exact ⟨h1, h3, h2, h4, h5⟩
    · rintro ⟨h1, h2, h3, h4, h5⟩; exact ⟨_, h1, h3, h2, h4, h5, rfl⟩
  · intro s b h
    obtain ⟨_, _, _, _, _, hx⟩ := new_ok.mp h
    cases hx
    refine ⟨?_, rfl, rfl, rfl, rfl, fun _ => rfl, fun _ => rfl, fun _ => rfl, ?_⟩
    · intro m
      show m ∈ (insertAll .empty ms).keys ↔ _
      rw [mem_insertAll]
      constructor
      · rintro (h | h)
        · cases h
        · exact h
      · exact .inr
    · congr 1
      clear h
      rename_i hlen _
      clear hlen
      induction ms with
      | nil => rfl
      | cons m t ih =>
        rw [List.flatMap_cons, ih]
        cases m <;> rfl

example : (new ⟨"ms", "f", "fk", 0, 0, true⟩ false demoMembers 3).toBool = true ∧
    (new ⟨"ms", "f", "fk", 0, 0, true⟩ false demoMembers 4).toBool = false ∧
    (new ⟨"ms", "f", "fk", 1, 0, true⟩ false demoMembers 3).toBool = false ∧
    (new ⟨"ms", "f", "fk", 0, 0, true⟩ true demoMembers 3).toBool = false := by decide +kernel

/-! ## C81 -/

/-- The numbers of an action fit the types of their JSON fields: `U128` for amounts and allowances, `U64`
for gas, `u32` for the configuration. -/
def Fits : Action → Prop
  | .transfer a => a < 2 ^ 128
  | .createAccount => True
  | .deployContract _ => True
  | .addMember _ => True
  | .deleteMember _ => True
  | .addKey _ none => True
  | .addKey _ (some ⟨none, _, _⟩) => True
  | .addKey _ (some ⟨some al, _, _⟩) => al < 2 ^ 128
  | .functionCall _ _ d g => d < 2 ^ 128 ∧ g < 2 ^ 64
  | .setNumConfirmations n => n < 2 ^ 32
  | .setActiveRequestsLimit n => n < 2 ^ 32

theorem inRange_iff (a : Action) : a.inRange = true ↔ Fits a := by
  have h128 : two128 = 2 ^ 128 := rfl
  have h64 : two64 = 2 ^ 64 := rfl
  have h32 : two32 = 2 ^ 32 := rfl
  cases a with
  | addKey k p =>
    cases p with
    | none => simp [Action.inRange, Fits]
    | some p =>
      obtain ⟨al, r, ms⟩ := p
      cases al <;> simp [Action.inRange, Fits, h128]
  | _ => simp [Action.inRange, Fits, h128, h64, h32]

/-- **C81, accepted requests.** `add_request` is accepted exactly when a member calls without deposit,
the numbers fit their types, the member has fewer pending requests than the limit, and an id is left.
The content of the request is not examined any further at this point. -/
theorem C81_add_request_accepted {self : AccountId} {ms : List Member} {n : Nat} {w : World}
    (h : Reachable self ms n w) (who : AccountId) (k : PublicKey) (att : Nat) (host : Bool)
    (q : Request) :
    (∃ r, exec (mkEnv self w who k att host) w.c (.addRequest q) = .ok r) ↔
      att = 0 ∧ actor self who k ∈ getMembers w.c ∧ (∀ a ∈ q.actions, Fits a) ∧
      numPending w.c (actor self who k) < w.c.limit ∧ getRequestNonce w.c + 1 < 2 ^ 32 := by
  rw [C48_add_request_iff h, List.all_eq_true]
  simp only [inRange_iff]
  rfl

/-- **C81, effect.** The request is stored under the next id, without confirmations, and counted for the
member who calls; everything else is as before and nothing is executed. -/
theorem C81_add_request_effect {self : AccountId} {w : World} {who : AccountId} {k : PublicKey}
    {att : Nat} {host : Bool} {q : Request} {r : Res}
    (hr : exec (mkEnv self w who k att host) w.c (.addRequest q) = .ok r) :
    r.id = getRequestNonce w.c ∧ r.batch = none ∧ getRequestNonce r.c = getRequestNonce w.c + 1 ∧
    (∀ id, getRequest r.c id = if id = r.id then .ok q else getRequest w.c id) ∧
    (∀ id, getConfirmations r.c id = if id = r.id then .ok [] else getConfirmations w.c id) ∧
    (∀ m, getNumRequestsPerMember r.c m =
      getNumRequestsPerMember w.c m + if m = actor self who k then 1 else 0) ∧
    getNumConfirmations r.c = getNumConfirmations w.c ∧ r.c.limit = w.c.limit ∧
    getMembers r.c = getMembers w.c := by
  cases exec_ok.mp hr with
  | add m q h1 h2 =>
    have hact : actor self who k = m := (currentMember_ok.mp h2.member).1
    refine ⟨rfl, rfl, rfl, ?_, ?_, ?_, rfl, rfl, rfl⟩
    · intro id
      simp only [getRequest, added, Book.add, UMap.get_insert]
      by_cases hid : w.c.book.nonce = id
      · simp [hid, pure, Except.pure]
      · simp [hid, Ne.symm hid]
    · intro id
      simp only [getConfirmations, added, Book.add, UMap.get_insert]
      by_cases hid : w.c.book.nonce = id
      · simp [hid, pure, Except.pure]
      · simp [hid, Ne.symm hid]
    · intro m'
      simp only [getNumRequestsPerMember, added, Book.add, UMap.get_insert, hact]
      by_cases hk : m = m'
      · simp [hk]
      · have : m.str ≠ m'.str := fun h => hk (str_inj h)
        simp [this, Ne.symm hk]

/-- **C81, in one call.** `add_request_and_confirm` is accepted exactly when `add_request` is and the new
request can then be confirmed by the same member; it returns the id of the request and does what the
two calls do. -/
theorem C81_add_and_confirm {self : AccountId} {w : World} (who : AccountId) (k : PublicKey)
    (att : Nat) (host : Bool) (q : Request) (r : Res) :
    exec (mkEnv self w who k att host) w.c (.addRequestAndConfirm q) = .ok r ↔
      ∃ r1 r2, exec (mkEnv self w who k att host) w.c (.addRequest q) = .ok r1 ∧
        exec (mkEnv self w who k att host) r1.c (.confirm r1.id) = .ok r2 ∧
        r.c = r2.c ∧ r.id = r1.id ∧ r.batch = r2.batch := by
  constructor
  · intro h
    cases exec_ok.mp h with
    | addConfirm m q s' b h1 h2 h3 =>
      exact ⟨_, _, exec_ok.mpr (.add m q h1 h2), exec_ok.mpr (.confirm _ s' b h1 h3), rfl, rfl, rfl⟩
  · rintro ⟨r1, r2, h1, h2, h3, h4, h5⟩
    cases exec_ok.mp h1 with
    | add m q g1 g2 =>
      cases exec_ok.mp h2 with
      | confirm id s' b g3 g4 =>
        obtain ⟨c, i, bb⟩ := r
        simp only at h3 h4 h5
        subst h3 h4 h5
        exact exec_ok.mpr (.addConfirm m q _ _ g1 g2 g4)

/-- A request at the upper end of the ranges is accepted, and the next larger numbers are not. -/
example :
    (exec (mkEnv "ms" demoStart "bob" "k" 0 true) demoStart.c (.addRequest ⟨"b",
      [.transfer (2 ^ 128 - 1), .functionCall "f" [] (2 ^ 128 - 1) (2 ^ 64 - 1)]⟩)).toBool = true ∧
    (exec (mkEnv "ms" demoStart "bob" "k" 0 true) demoStart.c (.addRequest ⟨"b",
      [.functionCall "f" [] 0 (2 ^ 64)]⟩)).toBool = false ∧
    (exec (mkEnv "ms" demoStart "ms" "k1" 0 true) demoStart.c (.addRequestAndConfirm demoPay)).toBool
      = true := by decide +kernel

/-! ## C82 -/

theorem apply_gone (l : List Action) (s : State) (id : Nat) (h1 : s.book.requests.get id = none)
    (h2 : s.book.confs.get id = none) : (applyActions s l).book.requests.get id = none ∧
      (applyActions s l).book.confs.get id = none := by
  obtain ⟨g1, g2, _⟩ := apply_facts l s
  constructor
  · cases hh : (applyActions s l).book.requests.get id with
    | none => rfl
    | some x => have := g1 _ _ hh; rw [h1] at this; cases this
  · cases hh : (applyActions s l).book.confs.get id with
    | none => rfl
    | some x => have := g2 _ _ hh; rw [h2] at this; cases this

theorem apply_get (l : List Action) (s : State) {id : Nat} {st : Stored Member Request}
    (h : s.book.requests.get id = some st) :
    (applyActions s l).book.requests.get id =
      (if .deleteMember st.signer ∈ l then none else some st) ∧
    (applyActions s l).book.confs.get id =
      (if .deleteMember st.signer ∈ l then none else s.book.confs.get id) := by
  induction l generalizing s with
  | nil => simp [applyActions, h]
  | cons a t ih =>
    cases a with
    | deleteMember k =>
      have e1 := Book.purge_get s.book Member.str k id
      have e2 := Book.purge_confs s.book Member.str k id
      simp only [h] at e1 e2
      by_cases hk : st.signer = k
      · rw [if_pos hk] at e1 e2
        have := apply_gone t (applyAction s (.deleteMember k)) id e1 e2
        simp only [applyActions, hk, List.mem_cons, true_or, if_true]
        exact this
      · rw [if_neg hk] at e1 e2
        have := ih (applyAction s (.deleteMember k)) e1
        simp only [applyActions, List.mem_cons, Action.deleteMember.injEq, hk, false_or]
        rw [this.1, this.2]
        exact ⟨rfl, by rw [← e2]; rfl⟩
    | addMember m => simpa [applyActions, applyAction] using ih { s with members := s.members.insert m () } h
    | setNumConfirmations n => simpa [applyActions, applyAction] using ih { s with numConfirmations := n } h
    | setActiveRequestsLimit n => simpa [applyActions, applyAction] using ih { s with limit := n } h
    | _ => simpa [applyActions, applyAction] using ih s h

/-- **C82.** An event leaves a pending request, with its author and time, and its confirmations alone,
except that a successful confirming call for this very request adds its member at the end; the request
disappears only by being deleted or executed, or when another request that removes its author from the
members executes. -/
theorem C82_pending_persists {self : AccountId} {ms : List Member} {n : Nat} {w : World}
    (h : Reachable self ms n w) (ev : Ev) {id : Nat} {st : Stored Member Request} {cs : List String}
    (hq : w.c.book.requests.get id = some st) (hc : w.c.book.confs.get id = some cs) :
    ((step self w ev).c.book.requests.get id = some st ∧
      ((step self w ev).c.book.confs.get id = some cs ∨
        ∃ m, Confirms self w ev m id ∧ m.str ∉ cs ∧
          (step self w ev).c.book.confs.get id = some (cs ++ [m.str]))) ∨
    (id ∉ listRequestIds (step self w ev).c ∧
      ((∃ m, Deletes self w ev m id) ∨ (∃ b, (step self w ev).issued = (id, b) :: w.issued) ∨
        ∃ id' q, id' ≠ id ∧ (step self w ev).issued = (id', q.toBatch self) :: w.issued ∧
          (getRequest w.c id' = .ok q ∨ ∃ m, Adds self w ev m id' q) ∧
          q.receiver = self ∧ .deleteMember st.signer ∈ q.actions)) := by
  have hm := reachable_minv h
  have hlt : id < w.c.book.nonce := hm.book.lt _ _ hq
  cases ev with
  | tick dt => exact .inl ⟨hq, .inl hc⟩
  | call who pk att host c =>
    have conf : ∀ (s : State) (id' : Nat) (s' : State) (b : Option Batch),
        s.book.requests.get id = some st → s.book.confs.get id = some cs →
        ConfRel (mkEnv self w who pk att host) s id' s' b →
        (s'.book.requests.get id = some st ∧ (s'.book.confs.get id = some cs ∨
          (id' = id ∧ (actor self who pk).str ∉ cs ∧
            s'.book.confs.get id = some (cs ++ [(actor self who pk).str])))) ∨
        (s'.book.requests.get id = none ∧ ∃ st', s.book.requests.get id' = some st' ∧
          b = some (st'.request.toBatch self) ∧ (id' = id ∨
          (st'.request.receiver = self ∧ .deleteMember st.signer ∈ st'.request.actions))) := by
      intro s id' s' b k1 k2 hr
      cases hr with
      | stored m st' cs' h1 h2 h3 h4 h5 h6 =>
        have hact : actor self who pk = m := (currentMember_ok.mp h1).1
        left
        refine ⟨k1, ?_⟩
        by_cases hid : id' = id
        · subst hid
          rw [k2] at h3; cases h3
          right
          rw [hact]
          exact ⟨rfl, h4, by simp [Book.confirm]⟩
        · left
          simp only [Book.confirm]
          rw [UMap.get_insert_ne hid]; exact k2
      | executed m st' cs' h1 h2 h3 h4 h5 h6 h7 h8 =>
        by_cases hid : id' = id
        · subst hid
          right
          refine ⟨?_, st', h2, rfl, .inl rfl⟩
          exact (apply_gone _ _ _ (by simp [Book.remove]) (by simp [Book.remove])).1
        · have r1 : ({ s with book := s.book.remove Member.str id' st' } : State).book.requests.get id
              = some st := by
            simp only [Book.remove]; rw [UMap.get_remove_ne hid]; exact k1
          have r2 : ({ s with book := s.book.remove Member.str id' st' } : State).book.confs.get id
              = some cs := by
            simp only [Book.remove]; rw [UMap.get_remove_ne hid]; exact k2
          obtain ⟨g1, g2⟩ := apply_get st'.request.actions _ r1
          by_cases hd : .deleteMember st.signer ∈ st'.request.actions
          · right
            rw [if_pos hd] at g1
            refine ⟨g1, st', h2, rfl, .inr ⟨?_, hd⟩⟩
            exact (allowedAll_mem _ h7 hd).2 rfl
          · left
            rw [if_neg hd] at g1 g2
            exact ⟨g1, .inl (g2.trans r2)⟩
    rcases step_call (self := self) (w := w) (who := who) (pk := pk) (att := att) (host := host)
      (c := c) with ⟨r, hr, heq⟩ | ⟨_, heq⟩
    · rw [heq]
      cases hr with
      | add m q h1 h2 =>
        left
        refine ⟨?_, .inl ?_⟩
        · simp only [added, Book.add]; rw [UMap.get_insert_ne (by omega)]; exact hq
        · simp only [added, Book.add]; rw [UMap.get_insert_ne (by omega)]; exact hc
      | addConfirm m q s' b h1 h2 h3 =>
        have ha : att = 0 := h1
        have hact : actor self who pk = m := (currentMember_ok.mp h2.member).1
        have a1 : (added (mkEnv self w who pk att host) w.c m q).book.requests.get id = some st := by
          simp only [added, Book.add]; rw [UMap.get_insert_ne (by omega)]; exact hq
        have a2 : (added (mkEnv self w who pk att host) w.c m q).book.confs.get id = some cs := by
          simp only [added, Book.add]; rw [UMap.get_insert_ne (by omega)]; exact hc
        rcases conf _ _ _ _ a1 a2 h3 with ⟨g1, g2 | ⟨g2, _⟩⟩ | ⟨g1, st', g0, rfl, g2 | ⟨g2, g3⟩⟩
        · exact .inl ⟨g1, .inl g2⟩
        · omega
        · omega
        · have hst : st' = ⟨q, m, w.now⟩ := by
            simpa [added, Book.add, mkEnv] using g0.symm
          subst hst
          refine .inr ⟨?_, .inr (.inr ⟨w.c.book.nonce, q, by omega, rfl, .inr ⟨m, ?_⟩, g2, g3⟩)⟩
          · simp [listRequestIds, UMap.mem_keys, g1]
          · subst ha
            exact ⟨who, pk, host, _, _, hact, rfl, .inr rfl,
              exec_ok.mpr (.addConfirm m q s' _ h1 h2 h3), rfl⟩
      | delete id' m st' cs' h1 h2 h3 h4 h5 h6 =>
        have ha : att = 0 := h1
        by_cases hid : id' = id
        · subst hid ha
          right
          refine ⟨by simp [listRequestIds, Book.remove, UMap.mem_keys], .inl ⟨actor self who pk, ?_⟩⟩
          exact ⟨who, pk, host, _, rfl, rfl, exec_ok.mpr (.delete id' m st' cs' h1 h2 h3 h4 h5 h6)⟩
        · left
          simp only [Book.remove]
          rw [UMap.get_remove_ne hid, UMap.get_remove_ne hid]
          exact ⟨hq, .inl hc⟩
      | confirm id' s' b h1 h2 =>
        have ha : att = 0 := h1
        subst ha
        rcases conf _ _ _ _ hq hc h2 with ⟨g1, g2 | ⟨rfl, g2, g3⟩⟩ | ⟨g1, st', g0, rfl, g2 | ⟨g2, g3⟩⟩
        · exact .inl ⟨g1, .inl g2⟩
        · exact .inl ⟨g1, .inr ⟨_, ⟨who, pk, host, _, rfl,
            .inl ⟨rfl, exec_ok.mpr (.confirm _ _ _ h1 h2)⟩⟩, g2, g3⟩⟩
        · subst g2
          exact .inr ⟨by simp [listRequestIds, UMap.mem_keys, g1], .inr (.inl ⟨_, rfl⟩)⟩
        · refine .inr ⟨by simp [listRequestIds, UMap.mem_keys, g1], ?_⟩
          by_cases hid : id' = id
          · subst hid; exact .inr (.inl ⟨_, rfl⟩)
          · refine .inr (.inr ⟨id', st'.request, hid, rfl, .inl ?_, g2, g3⟩)
            simp [getRequest, g0, pure, Except.pure]
    · rw [heq]; exact .inl ⟨hq, .inl hc⟩

/-- The cases of C82 occur: the payment of `k1` is confirmed and executed, or dropped together with its
author. -/
example :
    (run "ms" demoStart demoAdd).c.book.confs.get 0 = some [(Member.key "k1").str] ∧
    (run "ms" demoStart (demoAdd ++ [demoConfirm])).issued.map Prod.fst = [0] ∧
    listRequestIds (run "ms" demoStart (demoAdd ++
      [.call "carol" "x" 0 true (.addRequestAndConfirm ⟨"ms", [.deleteMember (.key "k1")]⟩),
      .call "bob" "x" 0 true (.confirm 1)])).c = [] ∧
    (run "ms" demoStart (demoAdd ++
      [.call "carol" "x" 0 true (.addRequestAndConfirm ⟨"ms", [.deleteMember (.key "k1")]⟩),
      .call "bob" "x" 0 true (.confirm 1)])).issued = [(1, ⟨"ms", [.deleteKey "k1"]⟩)] := by
  decide +kernel

end Verif.Multisig2
