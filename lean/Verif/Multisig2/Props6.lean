import Verif.Multisig2.Props5

/-!
# Multisig2: requests are rationed (C111)
-/

namespace Verif.Multisig2

open Verif

/-- Number of requests that `m` successfully adds with this event: none or one. -/
def addsOne (self : AccountId) (m : Member) (w : World) : Ev → Nat
  | .call who pk att host c =>
    match c with
    | .addRequest _ | .addRequestAndConfirm _ =>
      if actor self who pk = m ∧ (exec (mkEnv self w who pk att host) w.c c).isOk = true then 1 else 0
    | _ => 0
  | .tick _ => 0

/-- Number of requests that `m` successfully adds in a history. -/
def addsBy (self : AccountId) (m : Member) (w : World) : List Ev → Nat
  | [] => 0
  | ev :: t => addsOne self m w ev + addsBy self m (step self w ev) t

/-- The event executes the request `q` of `author`: a pending one, or the one it adds itself. -/
def Executes (self : AccountId) (w : World) (ev : Ev) (author : Member) (id : Nat) (q : Request) : Prop :=
  (∃ b, (step self w ev).issued = (id, b) :: w.issued) ∧
  ((∃ st, w.c.book.requests.get id = some st ∧ st.signer = author ∧ st.request = q) ∨
    Adds self w ev author id q)

/-- What the others execute meanwhile: requests that are not of `m`, do not remove `m` from the members
and do not change the limit. -/
def LeavesAlone (self : AccountId) (m : Member) (w : World) (ev : Ev) : Prop :=
  ∀ author id q, Executes self w ev author id q → author ≠ m ∧
    .deleteMember m ∉ q.actions ∧ ∀ n, .setActiveRequestsLimit n ∉ q.actions

theorem addsBy_append (self : AccountId) (m : Member) (w : World) (l1 l2 : List Ev) :
    addsBy self m w (l1 ++ l2) = addsBy self m w l1 + addsBy self m (run self w l1) l2 := by
  induction l1 generalizing w with
  | nil => simp [addsBy, run]
  | cons ev t ih => simp only [List.cons_append, addsBy, run, ih]; omega

theorem step_now (self : AccountId) (w : World) (ev : Ev) : w.now ≤ (step self w ev).now := by
  cases ev with
  | tick dt => exact Nat.le_add_right _ _
  | call who pk att host c =>
    simp only [step]
    split <;> exact Nat.le_refl _

theorem run_now (self : AccountId) (w : World) (evs : List Ev) : w.now ≤ (run self w evs).now := by
  induction evs generalizing w with
  | nil => exact Nat.le_refl _
  | cons ev t ih => exact Nat.le_trans (step_now self w ev) (ih _)

theorem apply_limit {l : List Action} (h : ∀ n, .setActiveRequestsLimit n ∉ l) (s : State) :
    (applyActions s l).limit = s.limit := by
  induction l generalizing s with
  | nil => rfl
  | cons a t ih =>
    rw [applyActions, ih (fun n hn => h n (List.mem_cons_of_mem _ hn))]
    cases a <;> first | rfl | exact absurd List.mem_cons_self (h _)

theorem addsOne_adds {self : AccountId} {m : Member} {w : World} {ev : Ev} (h : addsOne self m w ev ≠ 0) :
    addsOne self m w ev = 1 ∧ ∃ id q, Adds self w ev m id q := by
  cases ev with
  | tick dt => exact absurd rfl h
  | call who pk att host c =>
    have key : ∀ q, (c = .addRequest q ∨ c = .addRequestAndConfirm q) →
        actor self who pk = m → (exec (mkEnv self w who pk att host) w.c c).isOk = true →
        ∃ id q, Adds self w (.call who pk att host c) m id q := by
      intro q hc ha hok
      cases hx : exec (mkEnv self w who pk att host) w.c c with
      | error e => rw [hx] at hok; cases hok
      | ok r =>
        have hatt : att = 0 := by
          cases exec_ok.mp hx with
          | add _ _ h1 _ => exact h1
          | addConfirm _ _ _ _ h1 _ _ => exact h1
          | delete _ _ _ _ h1 => exact h1
          | confirm _ _ _ h1 => exact h1
        subst hatt
        exact ⟨r.id, q, who, pk, host, c, r, ha, rfl, hc, hx, rfl⟩
    cases c with
    | addRequest q =>
      simp only [addsOne] at h ⊢
      split at h
      · rename_i hc; exact ⟨by rw [if_pos hc], key q (.inl rfl) hc.1 hc.2⟩
      · exact absurd rfl h
    | addRequestAndConfirm q =>
      simp only [addsOne] at h ⊢
      split at h
      · rename_i hc; exact ⟨by rw [if_pos hc], key q (.inr rfl) hc.1 hc.2⟩
      · exact absurd rfl h
    | deleteRequest id => exact absurd rfl h
    | confirm id => exact absurd rfl h

/-- What an event executes, if it executes something. -/
theorem step_executes {self : AccountId} {w : World} {ev : Ev} {id : Nat} {b : Batch}
    (h : (step self w ev).issued = (id, b) :: w.issued) :
    ∃ author q, Executes self w ev author id q ∧
      ∃ s1, s1.limit = w.c.limit ∧ (step self w ev).c = applyActions s1 q.actions := by
  cases ev with
  | tick dt => exact absurd (congrArg List.length h) (by simp [step])
  | call who pk att host c =>
    rcases step_call (self := self) (w := w) (who := who) (pk := pk) (att := att) (host := host)
      (c := c) with ⟨r, hr, heq⟩ | ⟨_, heq⟩
    · have h' := h
      rw [heq] at h'
      simp only [logged] at h'
      have hatt : att = 0 := by
        cases hr with
        | add _ _ h1 _ => exact h1
        | addConfirm _ _ _ _ h1 _ _ => exact h1
        | delete _ _ _ _ h1 => exact h1
        | confirm _ _ _ h1 => exact h1
      subst hatt
      have hx := exec_ok.mpr hr
      cases hr with
      | add m q h1 h2 => exact absurd (congrArg List.length h') (by simp)
      | delete id m st cs h1 => exact absurd (congrArg List.length h') (by simp)
      | addConfirm m q s' bb h1 h2 h3 =>
        cases h3 with
        | stored => exact absurd (congrArg List.length h') (by simp)
        | executed m' st cs g1 g2 g3 g4 g5 g6 g7 g8 =>
          have hst : st = ⟨q, m, w.now⟩ := by simpa [added, Book.add, mkEnv] using g2.symm
          subst hst
          have hact : actor self who pk = m := (currentMember_ok.mp h2.member).1
          have hid : w.c.book.nonce = id := by
            simp only [List.cons.injEq, Prod.mk.injEq] at h'; exact h'.1.1
          refine ⟨m, q, ⟨⟨b, h⟩, .inr ⟨who, pk, host, _, _, hact, rfl, .inr rfl, hx, hid⟩⟩, _, ?_,
            congrArg World.c heq⟩
          rfl
      | confirm id' s' bb h1 h3 =>
        cases h3 with
        | stored => exact absurd (congrArg List.length h') (by simp)
        | executed m' st cs g1 g2 g3 g4 g5 g6 g7 g8 =>
          have hid : id' = id := by
            simp only [List.cons.injEq, Prod.mk.injEq] at h'; exact h'.1.1
          subst hid
          refine ⟨st.signer, st.request, ⟨⟨b, h⟩, .inl ⟨st, g2, rfl, rfl⟩⟩, _, ?_, congrArg World.c heq⟩
          rfl
    · rw [heq] at h; exact absurd (congrArg List.length h) (by simp)

/-- An event changes the limit only by executing a request that says so. -/
theorem step_limit {self : AccountId} {m : Member} {w : World} {ev : Ev} (h : LeavesAlone self m w ev) :
    (step self w ev).c.limit = w.c.limit := by
  by_cases hx : ∃ id b, (step self w ev).issued = (id, b) :: w.issued
  · obtain ⟨id, b, hx⟩ := hx
    obtain ⟨author, q, he, s1, h1, h2⟩ := step_executes hx
    rw [h2, apply_limit (h author id q he).2.2, h1]
  · cases ev with
    | tick dt => rfl
    | call who pk att host c =>
      rcases step_call (self := self) (w := w) (who := who) (pk := pk) (att := att) (host := host)
        (c := c) with ⟨r, hr, heq⟩ | ⟨_, heq⟩
      · rw [heq] at hx ⊢
        simp only [logged] at hx
        cases hr with
        | add m q h1 h2 => rfl
        | delete id m st cs h1 => rfl
        | addConfirm m q s' bb h1 h2 h3 =>
          cases h3 with
          | stored => rfl
          | executed => exact absurd ⟨_, _, rfl⟩ hx
        | confirm id' s' bb h1 h3 =>
          cases h3 with
          | stored => rfl
          | executed => exact absurd ⟨_, _, rfl⟩ hx
      · rw [heq]

/-- A request of `m` younger than the cooldown survives what leaves `m` alone. -/
theorem step_survives {self : AccountId} {ms : List Member} {n : Nat} {w : World}
    (h : Reachable self ms n w) {m : Member} {ev : Ev} (hl : LeavesAlone self m w ev) {id : Nat}
    {st : Stored Member Request} (hq : w.c.book.requests.get id = some st) (hs : st.signer = m)
    (ht : w.now ≤ st.added + 15 * 60 * 1000000000) :
    (step self w ev).c.book.requests.get id = some st := by
  have hm := reachable_minv h
  have hids := hm.book.ids id
  rw [hq] at hids
  obtain ⟨cs, hc⟩ := Option.isSome_iff_exists.mp hids.symm
  rcases C82_pending_persists h ev hq hc with ⟨h1, _⟩ | ⟨_, ⟨m', hd⟩ | ⟨b, hb⟩ | ⟨id', q, _, hb, ho, _, hd⟩⟩
  · exact h1
  · exfalso
    obtain ⟨who, pk, host, r, _, rfl, hx⟩ := hd
    cases exec_ok.mp hx with
    | delete id m st' cs h1 h2 h3 h4 h5 h6 =>
      rw [hq] at h3; cases h3
      have h7 : st.added + 15 * 60 * 1000000000 < w.now := h6
      omega
  · exact absurd hs (hl _ _ _ ⟨⟨b, hb⟩, .inl ⟨st, hq, rfl, rfl⟩⟩).1
  · exfalso
    rw [hs] at hd
    rcases ho with ho | ⟨m', ho⟩
    · cases hg : w.c.book.requests.get id' with
      | none => simp [getRequest, hg, throw, throwThe, MonadExceptOf.throw] at ho
      | some st' =>
        simp only [getRequest, hg, pure, Except.pure, Except.ok.injEq] at ho
        exact (hl _ _ _ ⟨⟨_, hb⟩, .inl ⟨st', hg, rfl, ho⟩⟩).2.1 hd
    · exact (hl _ _ _ ⟨⟨_, hb⟩, .inr ho⟩).2.1 hd

/-- A request added by an event that leaves its author alone is pending afterwards. -/
theorem adds_pending {self : AccountId} {w : World} {m : Member} {ev : Ev} (hl : LeavesAlone self m w ev)
    {id : Nat} {q : Request} (ha : Adds self w ev m id q) :
    id = w.c.book.nonce ∧ (step self w ev).c.book.requests.get id = some ⟨q, m, w.now⟩ := by
  have ha' := ha
  obtain ⟨who, k, host, c, r, hact, rfl, hc, hr, rfl⟩ := ha
  have hst : step self w (.call who k 0 host c) = { w with c := r.c, issued := logged r w.issued } := by
    simp only [step, hr]
  have hid : ∀ m', CanAdd (mkEnv self w who k 0 host) w.c m' q → m' = m := by
    intro m' hca
    have := (currentMember_ok.mp hca.member).1
    rw [← hact, ← this]; rfl
  cases exec_ok.mp hr with
  | add m' q' h1 h2 =>
    have hq : q' = q := by rcases hc with hc | hc <;> cases hc; rfl
    subst hq
    have := hid _ h2; subst this
    rw [hst]
    exact ⟨rfl, by simp [added, Book.add, mkEnv]⟩
  | addConfirm m' q' s' b h1 h2 h3 =>
    have hq : q' = q := by rcases hc with hc | hc <;> cases hc; rfl
    subst hq
    have := hid _ h2; subst this
    cases h3 with
    | stored =>
      rw [hst]
      exact ⟨rfl, by simp [added, Book.add, Book.confirm, mkEnv]⟩
    | executed =>
      exact absurd rfl (hl _ _ _ ⟨⟨_, by rw [hst]; rfl⟩, .inr ha'⟩).1
  | delete id m' st cs h1 h2 h3 h4 h5 h6 => rcases hc with hc | hc <;> cases hc
  | confirm id s' b h1 h2 => rcases hc with hc | hc <;> cases hc

/-- The requests that `m` added in the window are all still pending. -/
theorem window {self : AccountId} {ms : List Member} {n : Nat} {w : World} (h : Reachable self ms n w)
    {m : Member} {evs : List Ev} (ht : (run self w evs).now ≤ w.now + 15 * 60 * 1000000000)
    (hq : ∀ l1 ev l2, evs = l1 ++ ev :: l2 → LeavesAlone self m (run self w l1) ev) :
    (run self w evs).c.limit = w.c.limit ∧ addsBy self m w evs ≤ w.c.limit ∧
    ∃ ids : List Nat, ids.Nodup ∧ ids.length = addsBy self m w evs ∧
      ∀ id ∈ ids, ∃ st, (run self w evs).c.book.requests.get id = some st ∧ st.signer = m ∧
        w.now ≤ st.added := by
  induction evs using List.reverseRecOn with
  | nil => exact ⟨rfl, Nat.zero_le _, [], List.nodup_nil, rfl, by simp⟩
  | append_singleton l ev ih =>
    rw [run_snoc] at ht ⊢
    have hr : Reachable self ms n (run self w l) := by
      obtain ⟨w0, e0, h0, rfl⟩ := h
      exact ⟨w0, e0 ++ l, h0, by rw [run_append]⟩
    have hnow := step_now self (run self w l) ev
    obtain ⟨i1, i2, ids, i3, i4, i5⟩ := ih (by omega)
      (fun l1 e l2 he => hq l1 e (l2 ++ [ev]) (by rw [he]; simp))
    have hl := hq l ev [] (by simp)
    have hn0 := run_now self w l
    have hsurv : ∀ id ∈ ids, ∃ st, (step self (run self w l) ev).c.book.requests.get id = some st ∧
        st.signer = m ∧ w.now ≤ st.added := by
      intro id hid
      obtain ⟨st, g1, g2, g3⟩ := i5 id hid
      exact ⟨st, step_survives hr hl g1 g2 (by omega), g2, g3⟩
    rw [addsBy_append]
    simp only [addsBy, Nat.add_zero]
    have hlim := step_limit hl
    by_cases ha : addsOne self m (run self w l) ev = 0
    · rw [ha]
      exact ⟨hlim.trans i1, by omega, ids, i3, i4, hsurv⟩
    · obtain ⟨h1, id, q, ha⟩ := addsOne_adds ha
      rw [h1]
      obtain ⟨e1, e2⟩ := adds_pending hl ha
      have hlt : id ∉ ids := by
        intro hid
        obtain ⟨st, g1, _⟩ := i5 id hid
        have := (reachable_minv hr).book.lt _ _ g1
        omega
      have hall : ∀ id' ∈ id :: ids, ∃ st, (step self (run self w l) ev).c.book.requests.get id' = some st ∧
          st.signer = m ∧ w.now ≤ st.added := by
        intro id' hid'
        rcases List.mem_cons.mp hid' with rfl | hid'
        · exact ⟨_, e2, rfl, hn0⟩
        · exact hsurv id' hid'
      have hnd : (id :: ids).Nodup := List.nodup_cons.mpr ⟨hlt, i3⟩
      refine ⟨hlim.trans i1, ?_, id :: ids, hnd, by rw [List.length_cons, i4], hall⟩
      have hlim2 := (C48_limit_respected hr ha).2
      rw [← pending_eq, Book.pending_eq_length, i1] at hlim2
      refine Nat.le_trans ?_ hlim2
      rw [← i4, ← List.length_cons (a := id)]
      refine (List.subperm_of_subset hnd ?_).length_le
      intro x hx
      obtain ⟨st, g1, g2, _⟩ := hall x hx
      exact Book.mem_idsOf.mpr ⟨st, g1, g2⟩

/-- **C111 (requests are rationed).** In any fifteen minutes a member can add at most as many requests as
the limit says (twelve unless changed), whatever it and the others try, as long as no request of its own
is executed and no executed request removes it or changes the limit. So a member that cannot convince the
others can make the account pay for at most that many additions. -/
theorem C111_requests_are_rationed {self : AccountId} {ms : List Member} {n : Nat} {w : World}
    (h : Reachable self ms n w) {m : Member} {evs : List Ev}
    (ht : (run self w evs).now ≤ w.now + 15 * 60 * 1000000000)
    (hq : ∀ l1 ev l2, evs = l1 ++ ev :: l2 → LeavesAlone self m (run self w l1) ev) :
    addsBy self m w evs ≤ w.c.limit :=
  (window h ht hq).2.1

/-- Executable form of `LeavesAlone`. -/
def leavesAloneB (self : AccountId) (m : Member) (w : World) (ev : Ev) : Bool :=
  let fine (author : Member) (q : Request) : Bool := decide (author ≠ m) &&
    q.actions.all (fun a => match a with
      | .deleteMember m' => decide (m' ≠ m)
      | .setActiveRequestsLimit _ => false
      | _ => true)
  match (step self w ev).issued with
  | [] => true
  | (id, _) :: t =>
    decide (t.length ≠ w.issued.length) ||
    ((match w.c.book.requests.get id with
      | some st => fine st.signer st.request
      | none => true) &&
     (match ev with
      | .call who pk _ _ (.addRequest q) => fine (actor self who pk) q
      | .call who pk _ _ (.addRequestAndConfirm q) => fine (actor self who pk) q
      | _ => true))

theorem leavesAlone_of_b {self : AccountId} {m : Member} {w : World} {ev : Ev}
    (h : leavesAloneB self m w ev = true) : LeavesAlone self m w ev := by
  have fin : ∀ {author : Member} {q : Request}, (decide (author ≠ m) &&
      q.actions.all (fun a => match a with
        | .deleteMember m' => decide (m' ≠ m)
        | .setActiveRequestsLimit _ => false
        | _ => true)) = true → author ≠ m ∧ .deleteMember m ∉ q.actions ∧
      ∀ n, .setActiveRequestsLimit n ∉ q.actions := by
    intro author q hf
    simp only [Bool.and_eq_true, decide_eq_true_eq, List.all_eq_true] at hf
    refine ⟨hf.1, fun hm => ?_, fun n hm => ?_⟩
    · simpa using hf.2 _ hm
    · simpa using hf.2 _ hm
  rintro author id q ⟨⟨b, hb⟩, ho⟩
  unfold leavesAloneB at h
  simp only [hb, ne_eq, not_true, decide_false, Bool.false_or, Bool.and_eq_true] at h
  rcases ho with ⟨st, h1, rfl, rfl⟩ | ⟨who, pk, host, c, r, hact, rfl, hc, hr, _⟩
  · rw [h1] at h
    exact fin (by simpa using h.1)
  · subst hact
    rcases hc with rfl | rfl
    · exact fin (by simpa using h.2)
    · exact fin (by simpa using h.2)

theorem leavesAlone_all {self : AccountId} {m : Member} {w : World} {evs : List Ev}
    (h : (List.range evs.length).all (fun i => match evs[i]? with
      | some ev => leavesAloneB self m (run self w (evs.take i)) ev
      | none => true) = true) :
    ∀ l1 ev l2, evs = l1 ++ ev :: l2 → LeavesAlone self m (run self w l1) ev := by
  intro l1 ev l2 he
  rw [List.all_eq_true] at h
  have := h l1.length (by rw [he]; simp)
  rw [he] at this
  simp at this
  exact leavesAlone_of_b this

/-- The attack: `bob` floods the account with requests and tries to delete them, while the others pay
`dave` and let a new member in. -/
def demoFlood : List Ev :=
  List.replicate 7 (.call "bob" "x" 0 true (.addRequestAndConfirm demoPay)) ++
  [.call "carol" "x" 0 true (.addRequestAndConfirm demoLet), .call "ms" "k1" 0 true (.confirm 7),
    .tick 899999999999, .call "bob" "x" 0 true (.deleteRequest 0)] ++
  List.replicate 7 (.call "bob" "x" 0 true (.addRequest demoPay))

/-- Twelve of the fourteen requests of `bob` are accepted, although a request of `carol` is executed in
between; one more after the first one could be deleted. -/
example :
    Reachable "ms" demoMembers 2 demoStart ∧
    (run "ms" demoStart demoFlood).now ≤ demoStart.now + 15 * 60 * 1000000000 ∧
    (∀ l1 ev l2, demoFlood = l1 ++ ev :: l2 → LeavesAlone "ms" (.account "bob") (run "ms" demoStart l1) ev) ∧
    (run "ms" demoStart demoFlood).issued.length = 1 ∧
    demoStart.c.limit = 12 ∧ addsBy "ms" (.account "bob") demoStart demoFlood = 12 ∧
    addsBy "ms" (.account "bob") demoStart (demoFlood ++
      [.tick 2, .call "bob" "x" 0 true (.deleteRequest 0), .call "bob" "x" 0 true (.addRequest demoPay)]) =
      13 :=
  ⟨⟨demoStart, [], demo_started, rfl⟩, by decide +kernel, leavesAlone_all (by decide +kernel),
    by decide +kernel, by decide +kernel, by decide +kernel, by decide +kernel⟩

theorem length_le_of_count {α : Type} [DecidableEq α] {L : Nat} (ms : List α) (l : List α)
    (h1 : ∀ x ∈ l, x ∈ ms) (h2 : ∀ m, l.count m ≤ L) : l.length ≤ ms.length * L := by
  induction ms generalizing l with
  | nil =>
    cases l with
    | nil => simp
    | cons x t => exact absurd (h1 x (by simp)) (by simp)
  | cons m t ih =>
    have hs : l.length = l.count m + (l.filter (· ≠ m)).length := by
      rw [List.count, List.countP_eq_length_filter, List.length_eq_length_filter_add (· == m)]
      congr 2
      exact List.filter_congr (by simp [bne, BEq.beq])
    have h3 := ih (l.filter (· ≠ m)) (fun x hx => by
      simp only [List.mem_filter, decide_eq_true_eq] at hx
      rcases List.mem_cons.mp (h1 x hx.1) with h | h
      · exact absurd h hx.2
      · exact h)
      (fun m' => Nat.le_trans (List.Sublist.count_le _ List.filter_sublist) (h2 m'))
    have h4 := h2 m
    rw [List.length_cons, Nat.add_mul]
    omega

theorem pending_le {self : AccountId} {ms : List Member} {n : Nat} {w0 : World}
    (hs : Started self ms n w0) {L : Nat} (evs : List Ev)
    (hL : ∀ l1 l2, evs = l1 ++ l2 → (run self w0 l1).c.limit ≤ L) (m : Member) :
    numPending (run self w0 evs).c m ≤ L := by
  induction evs using List.reverseRecOn with
  | nil =>
    obtain ⟨_, _, h2, _⟩ := started_c hs
    simp [run, numPending, h2, UMap.empty]
  | append_singleton l ev ih =>
    have ih := ih (fun l1 l2 he => hL l1 (l2 ++ [ev]) (by rw [he]; simp))
    rw [run_snoc]
    by_cases ha : addsOne self m (run self w0 l) ev = 0
    · refine Nat.le_trans ?_ ih
      rw [← pending_eq, ← pending_eq, Book.pending_eq_length, Book.pending_eq_length]
      refine (List.subperm_of_subset (Book.idsOf_nodup _ m) ?_).length_le
      intro id hid
      obtain ⟨st, h1, h2⟩ := Book.mem_idsOf.mp hid
      refine Book.mem_idsOf.mpr ⟨st, ?_, h2⟩
      cases ev with
      | tick dt => exact h1
      | call who pk att host c =>
        rcases step_call (self := self) (w := run self w0 l) (who := who) (pk := pk) (att := att)
          (host := host) (c := c) with ⟨r, hr, heq⟩ | ⟨_, heq⟩
        · rw [heq] at h1
          have hx := exec_ok.mpr hr
          obtain ⟨m', k1, k2, k3, _⟩ := exec_facts hr
          rcases k3 id st h1 with h3 | ⟨_, _, h4, _, h5⟩
          · exact h3
          · exfalso
            have hact : actor self who pk = m := by
              rw [← h2, h4]; exact (currentMember_ok.mp k1).1
            have hok : (exec (mkEnv self (run self w0 l) who pk att host) (run self w0 l).c c).isOk =
                true := by rw [hx]; rfl
            rcases h5 with rfl | rfl <;> simp [addsOne, hact, hok] at ha
        · rw [heq] at h1; exact h1
    · obtain ⟨_, id, q, ha⟩ := addsOne_adds ha
      exact Nat.le_trans (C48_limit_respected ⟨w0, l, hs, rfl⟩ ha).2 (hL l [ev] rfl)

/-- **C111 (the book stays small).** If the limit was never above `L`, there are never more than `L`
pending requests per member. -/
theorem C111_pending_bounded {self : AccountId} {ms : List Member} {n : Nat} {w0 : World}
    (hs : Started self ms n w0) {L : Nat} (evs : List Ev)
    (hL : ∀ l1 l2, evs = l1 ++ l2 → (run self w0 l1).c.limit ≤ L) :
    (listRequestIds (run self w0 evs).c).length ≤ (getMembers (run self w0 evs).c).length * L := by
  have hm := reachable_minv ⟨w0, evs, hs, rfl⟩
  have hp := pending_le hs evs hL
  generalize (run self w0 evs).c = s at *
  have he : (listRequestIds s).length = (s.book.requests.entries.map (fun p => p.2.signer)).length := by
    simp [listRequestIds, UMap.keys]
  rw [he]
  refine length_le_of_count _ _ ?_ ?_
  · intro x hx
    obtain ⟨⟨id, st⟩, h1, rfl⟩ := List.mem_map.mp hx
    exact hm.author id st (UMap.get_eq_some.mpr h1)
  · intro m
    refine Nat.le_trans (Nat.le_of_eq ?_) (hp m)
    unfold numPending
    rw [List.count, List.countP_map, List.countP_eq_length_filter]
    congr 1

/-- Three members with twelve requests each: the bound is reached. -/
example :
    let evs := List.replicate 14 (Ev.call "bob" "x" 0 true (.addRequest demoPay)) ++
      List.replicate 14 (Ev.call "carol" "x" 0 true (.addRequest demoPay)) ++
      List.replicate 14 (Ev.call "ms" "k1" 0 true (.addRequest demoPay))
    Started "ms" demoMembers 2 demoStart ∧
    (∀ i ∈ List.range 43, (run "ms" demoStart (evs.take i)).c.limit ≤ 12) ∧
    (listRequestIds (run "ms" demoStart evs).c).length = 3 * 12 :=
  ⟨demo_started, by decide +kernel, by decide +kernel⟩

end Verif.Multisig2
