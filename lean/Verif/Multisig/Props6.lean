import Verif.Multisig.Props5

/-!
# Multisig: requests are rationed (C111)
-/

namespace Verif.Multisig

open Verif

/-- Number of requests successfully added with the key `k` by this event: none or one. -/
def addsOne (self : AccountId) (k : PublicKey) (w : World) : Ev → Nat
  | .call who pk att host c =>
    match c with
    | .addRequest _ | .addRequestAndConfirm _ =>
      if pk = k ∧ (exec (mkEnv self w who pk att host) w.c c).isOk = true then 1 else 0
    | _ => 0
  | .tick _ => 0

/-- Number of requests successfully added with the key `k` in a history. -/
def addsBy (self : AccountId) (k : PublicKey) (w : World) : List Ev → Nat
  | [] => 0
  | ev :: t => addsOne self k w ev + addsBy self k (step self w ev) t

/-- The event executes the request `q` of `author`: a pending one, or the one it adds itself. -/
def Executes (self : AccountId) (w : World) (ev : Ev) (author : PublicKey) (id : Nat) (q : Request) : Prop :=
  (∃ b, (step self w ev).issued = (id, b) :: w.issued) ∧
  ((∃ st, w.c.book.requests.get id = some st ∧ st.signer = author ∧ st.request = q) ∨
    Adds self w ev author id q)

/-- What the others execute meanwhile: requests that are not of `k`, do not delete the key `k` and do not
change the limit. -/
def LeavesAlone (self : AccountId) (k : PublicKey) (w : World) (ev : Ev) : Prop :=
  ∀ author id q, Executes self w ev author id q → author ≠ k ∧
    .deleteKey k ∉ q.actions ∧ ∀ n, .setActiveRequestsLimit n ∉ q.actions

theorem addsBy_append (self : AccountId) (k : PublicKey) (w : World) (l1 l2 : List Ev) :
    addsBy self k w (l1 ++ l2) = addsBy self k w l1 + addsBy self k (run self w l1) l2 := by
  induction l1 generalizing w with
  | nil => simp [addsBy, run]
  | cons ev t ih => simp only [List.cons_append, addsBy, run, ih]; omega

theorem step_now (self : AccountId) (w : World) (ev : Ev) : w.now ≤ (step self w ev).now := by
  cases ev with
  | tick dt => exact Nat.le_add_right _ _
  | call who pk att host c =>
    simp only [step]
    split <;> exact Nat.le_refl _

theorem run_now (self : AccountId) (w : World) (evs : List Ev) : w.now ≤ (run self w evs).now := by
  induction evs generalizing w with
  | nil => exact Nat.le_refl _
  | cons ev t ih => exact Nat.le_trans (step_now self w ev) (ih _)

theorem apply_limit {l : List Action} (h : ∀ n, .setActiveRequestsLimit n ∉ l) (s : State) :
    (applyActions s l).limit = s.limit := by
  induction l generalizing s with
  | nil => rfl
  | cons a t ih =>
    have ih := fun s => ih (fun n hn => h n (List.mem_cons_of_mem _ hn)) s
    cases a <;> first | exact (ih _).trans rfl | exact absurd List.mem_cons_self (h _)

theorem addsOne_adds {self : AccountId} {k : PublicKey} {w : World} {ev : Ev}
    (h : addsOne self k w ev ≠ 0) :
    addsOne self k w ev = 1 ∧ ∃ id q, Adds self w ev k id q := by
  cases ev with
  | tick dt => exact absurd rfl h
  | call who pk att host c =>
    have key : ∀ q, (c = .addRequest q ∨ c = .addRequestAndConfirm q) →
        pk = k → (exec (mkEnv self w who pk att host) w.c c).isOk = true →
        ∃ id q, Adds self w (.call who pk att host c) k id q := by
      intro q hc ha hok
      subst ha
      cases hx : exec (mkEnv self w who pk att host) w.c c with
      | error e => rw [hx] at hok; cases hok
      | ok r =>
        obtain ⟨h1, h2, _⟩ := exec_facts (exec_ok.mp hx)
        have hatt : att = 0 := h2
        have hself : self = who := h1
        subst hatt hself
        exact ⟨r.id, q, host, c, r, rfl, hc, hx, rfl⟩
    cases c with
    | addRequest q =>
      simp only [addsOne] at h ⊢
      split at h
      · rename_i hc; exact ⟨by rw [if_pos hc], key q (.inl rfl) hc.1 hc.2⟩
      · exact absurd rfl h
    | addRequestAndConfirm q =>
      simp only [addsOne] at h ⊢
      split at h
      · rename_i hc; exact ⟨by rw [if_pos hc], key q (.inr rfl) hc.1 hc.2⟩
      · exact absurd rfl h
    | deleteRequest id => exact absurd rfl h
    | confirm id => exact absurd rfl h

/-- What an event executes, if it executes something. -/
theorem step_executes {self : AccountId} {w : World} {ev : Ev} {id : Nat} {b : Batch}
    (h : (step self w ev).issued = (id, b) :: w.issued) :
    ∃ author q, Executes self w ev author id q ∧ b = q.toBatch ∧
      ∃ s1, s1.limit = w.c.limit ∧ (step self w ev).c = applyActions s1 q.actions := by
  cases ev with
  | tick dt => exact absurd (congrArg List.length h) (by simp [step])
  | call who pk att host c =>
    rcases step_call (self := self) (w := w) (who := who) (pk := pk) (att := att) (host := host)
      (c := c) with ⟨r, hr, heq⟩ | ⟨_, heq⟩
    · have h' := h
      rw [heq] at h'
      simp only [logged] at h'
      obtain ⟨f1, f2, _⟩ := exec_facts hr
      have hatt : att = 0 := f2
      have hself : self = who := f1
      subst hatt hself
      have hx := exec_ok.mpr hr
      cases hr with
      | add q h1 h2 => exact absurd (congrArg List.length h') (by simp)
      | delete id st cs h1 => exact absurd (congrArg List.length h') (by simp)
      | addConfirm q s' bb h1 h2 h3 =>
        cases h3 with
        | stored => exact absurd (congrArg List.length h') (by simp)
        | executed st cs g1 g2 g3 g4 g5 g6 g7 g8 =>
          have hst : st = ⟨q, pk, w.now⟩ := by simpa [added, Book.add, mkEnv] using g2.symm
          subst hst
          simp only [List.cons.injEq, Prod.mk.injEq, and_true] at h'
          refine ⟨pk, q, ⟨⟨b, h⟩, .inr ⟨host, _, _, rfl, .inr rfl, hx, h'.1⟩⟩, h'.2.symm, _, ?_,
            congrArg World.c heq⟩
          rfl
      | confirm id' s' bb h1 h3 =>
        cases h3 with
        | stored => exact absurd (congrArg List.length h') (by simp)
        | executed st cs g1 g2 g3 g4 g5 g6 g7 g8 =>
          simp only [List.cons.injEq, Prod.mk.injEq, and_true] at h'
          have hid := h'.1
          subst hid
          refine ⟨st.signer, st.request, ⟨⟨b, h⟩, .inl ⟨st, g2, rfl, rfl⟩⟩, h'.2.symm, _, ?_,
            congrArg World.c heq⟩
          rfl
    · rw [heq] at h; exact absurd (congrArg List.length h) (by simp)

/-- An event changes the limit only by executing a request that says so. -/
theorem step_limit {self : AccountId} {k : PublicKey} {w : World} {ev : Ev}
    (h : LeavesAlone self k w ev) : (step self w ev).c.limit = w.c.limit := by
  by_cases hx : ∃ id b, (step self w ev).issued = (id, b) :: w.issued
  · obtain ⟨id, b, hx⟩ := hx
    obtain ⟨author, q, he, _, s1, h1, h2⟩ := step_executes hx
    rw [h2, apply_limit (h author id q he).2.2, h1]
  · cases ev with
    | tick dt => rfl
    | call who pk att host c =>
      rcases step_call (self := self) (w := w) (who := who) (pk := pk) (att := att) (host := host)
        (c := c) with ⟨r, hr, heq⟩ | ⟨_, heq⟩
      · rw [heq] at hx ⊢
        simp only [logged] at hx
        cases hr with
        | add q h1 h2 => rfl
        | delete id st cs h1 => rfl
        | addConfirm q s' bb h1 h2 h3 =>
          cases h3 with
          | stored => rfl
          | executed => exact absurd ⟨_, _, rfl⟩ hx
        | confirm id' s' bb h1 h3 =>
          cases h3 with
          | stored => rfl
          | executed => exact absurd ⟨_, _, rfl⟩ hx
      · rw [heq]

theorem mem_toP {l : List Action} {k : PublicKey} (h : PAction.deleteKey k ∈ l.filterMap Action.toP) :
    .deleteKey k ∈ l := by
  obtain ⟨a, h1, h2⟩ := List.mem_filterMap.mp h
  cases a with
  | deleteKey k' => simp only [Action.toP, Option.some.injEq, PAction.deleteKey.injEq] at h2; rwa [← h2]
  | addKey k' p => cases p <;> simp [Action.toP] at h2
  | _ => simp [Action.toP] at h2

/-- A request of `k` younger than the cooldown survives what leaves `k` alone. -/
theorem step_survives {self : AccountId} {n : Nat} {w : World}
    (h : Reachable self n w) {k : PublicKey} {ev : Ev} (hl : LeavesAlone self k w ev) {id : Nat}
    {st : Stored PublicKey Request} (hq : w.c.book.requests.get id = some st) (hs : st.signer = k)
    (ht : w.now ≤ st.added + 15 * 60 * 1000000000) :
    (step self w ev).c.book.requests.get id = some st := by
  have hm := reachable_minv h
  have hids := hm.book.ids id
  rw [hq] at hids
  obtain ⟨cs, hc⟩ := Option.isSome_iff_exists.mp hids.symm
  rcases C82_pending_persists h ev hq hc with ⟨h1, _⟩ | ⟨_, hd | ⟨b, hb⟩ | ⟨id', b, _, hb, _, hd⟩⟩
  · exact h1
  · exfalso
    obtain ⟨pk, host, r, rfl, hx⟩ := hd
    cases exec_ok.mp hx with
    | delete id st' cs h1 h2 h3 h4 h5 h6 =>
      rw [hq] at h3; cases h3
      have h7 : st.added + 15 * 60 * 1000000000 < w.now := h6
      omega
  · exact absurd hs (hl _ _ _ ⟨⟨b, hb⟩, .inl ⟨st, hq, rfl, rfl⟩⟩).1
  · exfalso
    obtain ⟨author, q, he, rfl, _⟩ := step_executes hb
    rw [hs] at hd
    exact (hl _ _ _ he).2.1 (mem_toP hd)

/-- A request added by an event that leaves its author alone is pending afterwards. -/
theorem adds_pending {self : AccountId} {w : World} {k : PublicKey} {ev : Ev}
    (hl : LeavesAlone self k w ev) {id : Nat} {q : Request} (ha : Adds self w ev k id q) :
    id = w.c.book.nonce ∧ (step self w ev).c.book.requests.get id = some ⟨q, k, w.now⟩ := by
  have ha' := ha
  obtain ⟨host, c, r, rfl, hc, hr, rfl⟩ := ha
  have hst : step self w (.call self k 0 host c) = { w with c := r.c, issued := logged r w.issued } := by
    simp only [step, hr]
  cases exec_ok.mp hr with
  | add q' h1 h2 =>
    have hq : q' = q := by rcases hc with hc | hc <;> cases hc; rfl
    subst hq
    rw [hst]
    exact ⟨rfl, by simp [added, Book.add, mkEnv]⟩
  | addConfirm q' s' b h1 h2 h3 =>
    have hq : q' = q := by rcases hc with hc | hc <;> cases hc; rfl
    subst hq
    cases h3 with
    | stored =>
      rw [hst]
      exact ⟨rfl, by simp [added, Book.add, Book.confirm, mkEnv]⟩
    | executed =>
      exact absurd rfl (hl _ _ _ ⟨⟨_, by rw [hst]; rfl⟩, .inr ha'⟩).1
  | delete id st cs h1 h2 h3 h4 h5 h6 => rcases hc with hc | hc <;> cases hc
  | confirm id s' b h1 h2 => rcases hc with hc | hc <;> cases hc

/-- The requests that `k` added in the window are all still pending. -/
theorem window {self : AccountId} {n : Nat} {w : World} (h : Reachable self n w)
    {k : PublicKey} {evs : List Ev} (ht : (run self w evs).now ≤ w.now + 15 * 60 * 1000000000)
    (hq : ∀ l1 ev l2, evs = l1 ++ ev :: l2 → LeavesAlone self k (run self w l1) ev) :
    (run self w evs).c.limit = w.c.limit ∧ addsBy self k w evs ≤ w.c.limit ∧
    ∃ ids : List Nat, ids.Nodup ∧ ids.length = addsBy self k w evs ∧
      ∀ id ∈ ids, ∃ st, (run self w evs).c.book.requests.get id = some st ∧ st.signer = k ∧
        w.now ≤ st.added := by
  induction evs using List.reverseRecOn with
  | nil => exact ⟨rfl, Nat.zero_le _, [], List.nodup_nil, rfl, by simp⟩
  | append_singleton l ev ih =>
    rw [run_snoc] at ht ⊢
    have hr : Reachable self n (run self w l) := by
      obtain ⟨w0, e0, h0, rfl⟩ := h
      exact ⟨w0, e0 ++ l, h0, by rw [run_append]⟩
    have hnow := step_now self (run self w l) ev
    obtain ⟨i1, i2, ids, i3, i4, i5⟩ := ih (by omega)
      (fun l1 e l2 he => hq l1 e (l2 ++ [ev]) (by rw [he]; simp))
    have hl := hq l ev [] (by simp)
    have hn0 := run_now self w l
    have hsurv : ∀ id ∈ ids, ∃ st, (step self (run self w l) ev).c.book.requests.get id = some st ∧
        st.signer = k ∧ w.now ≤ st.added := by
      intro id hid
      obtain ⟨st, g1, g2, g3⟩ := i5 id hid
      exact ⟨st, step_survives hr hl g1 g2 (by omega), g2, g3⟩
    rw [addsBy_append]
    simp only [addsBy, Nat.add_zero]
    have hlim := step_limit hl
    by_cases ha : addsOne self k (run self w l) ev = 0
    · rw [ha]
      exact ⟨hlim.trans i1, by omega, ids, i3, i4, hsurv⟩
    · obtain ⟨h1, id, q, ha⟩ := addsOne_adds ha
      rw [h1]
      obtain ⟨e1, e2⟩ := adds_pending hl ha
      have hlt : id ∉ ids := by
        intro hid
        obtain ⟨st, g1, _⟩ := i5 id hid
        have := (reachable_minv hr).book.lt _ _ g1
        omega
      have hall : ∀ id' ∈ id :: ids, ∃ st,
          (step self (run self w l) ev).c.book.requests.get id' = some st ∧
          st.signer = k ∧ w.now ≤ st.added := by
        intro id' hid'
        rcases List.mem_cons.mp hid' with rfl | hid'
        · exact ⟨_, e2, rfl, hn0⟩
        · exact hsurv id' hid'
      have hnd : (id :: ids).Nodup := List.nodup_cons.mpr ⟨hlt, i3⟩
      refine ⟨hlim.trans i1, ?_, id :: ids, hnd, by rw [List.length_cons, i4], hall⟩
      have hlim2 := (C43_limit_respected hr ha).2
      rw [← pending_eq, Book.pending_eq_length, i1] at hlim2
      refine Nat.le_trans ?_ hlim2
      rw [← i4, ← List.length_cons (a := id)]
      refine (List.subperm_of_subset hnd ?_).length_le
      intro x hx
      obtain ⟨st, g1, g2, _⟩ := hall x hx
      exact Book.mem_idsOf.mpr ⟨st, g1, g2⟩

/-- **C111 (requests are rationed).** In any fifteen minutes at most as many requests can be added with one
key as the limit says (twelve unless changed), whatever anybody tries, as long as no request of this key
is executed and no executed request deletes the key or changes the limit. -/
theorem C111_requests_are_rationed {self : AccountId} {n : Nat} {w : World}
    (h : Reachable self n w) {k : PublicKey} {evs : List Ev}
    (ht : (run self w evs).now ≤ w.now + 15 * 60 * 1000000000)
    (hq : ∀ l1 ev l2, evs = l1 ++ ev :: l2 → LeavesAlone self k (run self w l1) ev) :
    addsBy self k w evs ≤ w.c.limit :=
  (window h ht hq).2.1

/-- Executable form of `LeavesAlone`. -/
def leavesAloneB (self : AccountId) (k : PublicKey) (w : World) (ev : Ev) : Bool :=
  let fine (author : PublicKey) (q : Request) : Bool := decide (author ≠ k) &&
    q.actions.all (fun a => match a with
      | .deleteKey k' => decide (k' ≠ k)
      | .setActiveRequestsLimit _ => false
      | _ => true)
  match (step self w ev).issued with
  | [] => true
  | (id, _) :: t =>
    decide (t.length ≠ w.issued.length) ||
    ((match w.c.book.requests.get id with
      | some st => fine st.signer st.request
      | none => true) &&
     (match ev with
      | .call _ pk _ _ (.addRequest q) => fine pk q
      | .call _ pk _ _ (.addRequestAndConfirm q) => fine pk q
      | _ => true))

theorem leavesAlone_of_b {self : AccountId} {k : PublicKey} {w : World} {ev : Ev}
    (h : leavesAloneB self k w ev = true) : LeavesAlone self k w ev := by
  have fin : ∀ {author : PublicKey} {q : Request}, (decide (author ≠ k) &&
      q.actions.all (fun a => match a with
        | .deleteKey k' => decide (k' ≠ k)
        | .setActiveRequestsLimit _ => false
        | _ => true)) = true → author ≠ k ∧ .deleteKey k ∉ q.actions ∧
      ∀ n, .setActiveRequestsLimit n ∉ q.actions := by
    intro author q hf
    simp only [Bool.and_eq_true, decide_eq_true_eq, List.all_eq_true] at hf
    refine ⟨hf.1, fun hm => ?_, fun n hm => ?_⟩
    · simpa using hf.2 _ hm
    · simpa using hf.2 _ hm
  rintro author id q ⟨⟨b, hb⟩, ho⟩
  unfold leavesAloneB at h
  simp only [hb, ne_eq, not_true, decide_false, Bool.false_or, Bool.and_eq_true] at h
  rcases ho with ⟨st, h1, rfl, rfl⟩ | ⟨host, c, r, rfl, hc, hr, _⟩
  · rw [h1] at h
    exact fin (by simpa using h.1)
  · rcases hc with rfl | rfl
    · exact fin (by simpa using h.2)
    · exact fin (by simpa using h.2)

theorem leavesAlone_all {self : AccountId} {k : PublicKey} {w : World} {evs : List Ev}
    (h : (List.range evs.length).all (fun i => match evs[i]? with
      | some ev => leavesAloneB self k (run self w (evs.take i)) ev
      | none => true) = true) :
    ∀ l1 ev l2, evs = l1 ++ ev :: l2 → LeavesAlone self k (run self w l1) ev := by
  intro l1 ev l2 he
  rw [List.all_eq_true] at h
  have := h l1.length (by rw [he]; simp)
  rw [he] at this
  simp at this
  exact leavesAlone_of_b this

/-- The attack: the key `k1` floods the account with requests and tries to delete them, while the others
raise the number of confirmations. -/
def demoFlood : List Ev :=
  List.replicate 7 (.call "ms" "k1" 0 true (.addRequestAndConfirm demoPay)) ++
  [.call "ms" "k2" 0 true (.addRequestAndConfirm demoThree), .call "ms" "k3" 0 true (.confirm 7),
    .tick 899999999999, .call "ms" "k1" 0 true (.deleteRequest 0)] ++
  List.replicate 7 (.call "ms" "k1" 0 true (.addRequest demoPay))

/-- Twelve of the fourteen requests of `k1` are accepted, although a request of `k2` is executed in
between; one more after the first one could be deleted. -/
example :
    Reachable "ms" 2 demoStart ∧
    (run "ms" demoStart demoFlood).now ≤ demoStart.now + 15 * 60 * 1000000000 ∧
    (∀ l1 ev l2, demoFlood = l1 ++ ev :: l2 → LeavesAlone "ms" "k1" (run "ms" demoStart l1) ev) ∧
    (run "ms" demoStart demoFlood).issued.length = 1 ∧
    demoStart.c.limit = 12 ∧ addsBy "ms" "k1" demoStart demoFlood = 12 ∧
    addsBy "ms" "k1" demoStart (demoFlood ++
      [.tick 2, .call "ms" "k1" 0 true (.deleteRequest 0), .call "ms" "k1" 0 true (.addRequest demoPay)]) =
      13 :=
  ⟨⟨demoStart, [], demo_started, rfl⟩, by decide +kernel, leavesAlone_all (by decide +kernel),
    by decide +kernel, by decide +kernel, by decide +kernel, by decide +kernel⟩

end Verif.Multisig
