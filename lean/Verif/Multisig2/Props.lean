import Verif.Multisig2.Demo

/-!
# The multisig2 contract: property theorems

C46 (only members act; enough distinct members), C42 (at most once, exactly as requested), C48
(bookkeeping), C44 (deletion), C50 (configuration and members). The statements use the calls of a
history (`Adds`, `Confirms`, `Deletes`) and the log of scheduled batches.
-/

namespace Verif.Multisig2

open Verif

/-! ## C46 -/

/-- **C46, members only.** A call by somebody who is not a member at that moment has no effect: it
panics, whatever it asks for. -/
theorem C46_only_members_act {self : AccountId} (w : World) (who : AccountId) (pk : PublicKey)
    (att : Nat) (host : Bool) (c : Call) (hm : actor self who pk ∉ getMembers w.c) :
    (∀ r, exec (mkEnv self w who pk att host) w.c c ≠ .ok r) ∧
    step self w (.call who pk att host c) = w := by
  rcases step_call (self := self) (w := w) (who := who) (pk := pk) (att := att) (host := host)
    (c := c) with ⟨r, hr, heq⟩ | ⟨h, heq⟩
  · obtain ⟨m, g1, _⟩ := exec_facts hr
    obtain ⟨g2, g3⟩ := currentMember_ok.mp g1
    rw [← g2] at g3
    exact absurd g3 hm
  · exact ⟨fun r hr => h r (exec_ok.mp hr), heq⟩

/-- A stranger, and the key member's key used through another account, are not members. -/
example : actor "ms" "eve" "k1" ∉ getMembers demoStart.c ∧
    actor "ms" "ms" "k9" ∉ getMembers demoStart.c := by decide +kernel

theorem confirms_member {self : AccountId} {w : World} {ev : Ev} {m : Member} {id : Nat}
    (h : Confirms self w ev m id) : m ∈ getMembers w.c := by
  obtain ⟨who, pk, host, r, rfl, ⟨_, h⟩ | ⟨q, _, h, _⟩⟩ := h
  · obtain ⟨m, g1, _⟩ := exec_facts (exec_ok.mp h)
    obtain ⟨g2, g3⟩ := currentMember_ok.mp g1
    rw [← g2] at g3; exact g3
  · obtain ⟨m, g1, _⟩ := exec_facts (exec_ok.mp h)
    obtain ⟨g2, g3⟩ := currentMember_ok.mp g1
    rw [← g2] at g3; exact g3

theorem adds_member {self : AccountId} {w : World} {ev : Ev} {m : Member} {id : Nat} {q : Request}
    (h : Adds self w ev m id q) : m ∈ getMembers w.c := by
  obtain ⟨who, pk, host, c, r, rfl, _, _, h, _⟩ := h
  obtain ⟨m, g1, _⟩ := exec_facts (exec_ok.mp h)
  obtain ⟨g2, g3⟩ := currentMember_ok.mp g1
  rw [← g2] at g3; exact g3

/-- The members behind a list of texts. -/
theorem members_of_strs {P : Member → Prop} (cs : List String)
    (h : ∀ k ∈ cs, ∃ m : Member, k = m.str ∧ P m) :
    ∃ ml : List Member, ml.map Member.str = cs ∧ ∀ m ∈ ml, P m := by
  induction cs with
  | nil => exact ⟨[], rfl, by simp⟩
  | cons k t ih =>
    obtain ⟨ml, h1, h2⟩ := ih (fun k hk => h k (by simp [hk]))
    obtain ⟨m, rfl, hm⟩ := h k List.mem_cons_self
    refine ⟨m :: ml, by simp [h1], ?_⟩
    intro m' hm'
    rcases List.mem_cons.mp hm' with rfl | hm'
    · exact hm
    · exact h2 m' hm'

/-- **C46, enough members.** Whenever an event schedules the actions of a request, the request was added
before (or by this very call) by somebody who was a member then, and since then at least
`num_confirmations` (its value before the event) distinct members have each made a successful
confirming call for this request, each being a member at the time of that call. -/
theorem C46_enough_distinct_members {self : AccountId} {ms : List Member} {n : Nat} {w0 : World}
    (hs : Started self ms n w0) (evs : List Ev) (ev : Ev) {id : Nat} {b : Batch}
    (hi : (step self (run self w0 evs) ev).issued = (id, b) :: (run self w0 evs).issued) :
    ∃ l1 e1 l2 m0 q, evs ++ [ev] = l1 ++ e1 :: l2 ∧ Adds self (run self w0 l1) e1 m0 id q ∧
      m0 ∈ getMembers (run self w0 l1).c ∧
      ∃ conf : List Member, conf.Nodup ∧
        getNumConfirmations (run self w0 evs).c ≤ conf.length ∧
        ∀ m ∈ conf, Sometime self (run self w0 l1) (e1 :: l2)
          (fun w e => Confirms self w e m id ∧ m ∈ getMembers w.c) := by
  have hne : (step self (run self w0 evs) ev).issued ≠ (run self w0 evs).issued := by
    intro h; rw [h] at hi; exact absurd (congrArg List.length hi) (by simp)
  obtain ⟨who, k, host, c, r, b', he, hr, hb, hst⟩ := issue_step hne
  have hid : r.id = id := by rw [hst] at hi; simp only [List.cons.injEq, Prod.mk.injEq] at hi; tauto
  subst hid
  obtain ⟨k0, q, ⟨l1, e1, l2, hl, ha⟩, _⟩ := issue_origin hs he hr hb
  refine ⟨l1, e1, l2, k0, q, hl, ha, adds_member ha, ?_⟩
  obtain ⟨m, s1, st, cs, hm0, h1, h2, h3, h4, h5, _⟩ := exec_batch hr hb
  have hm := minv_run (self := self) evs (started_minv hs)
  have hact : actor self who k = m := (currentMember_ok.mp hm0).1
  have hlast : Sometime self w0 (evs ++ [ev]) (fun w e => Confirms self w e m r.id) := by
    refine Sometime.last ⟨who, k, host, r, hact, ?_⟩
    rcases h1 with ⟨_, rfl⟩ | ⟨q', _, rfl, _⟩
    · exact .inl ⟨he, exec_ok.mpr hr⟩
    · exact .inr ⟨q', he, exec_ok.mpr hr, rfl⟩
  have since : ∀ m', Sometime self w0 (evs ++ [ev]) (fun w e => Confirms self w e m' r.id) →
      Sometime self (run self w0 l1) (e1 :: l2)
        (fun w e => Confirms self w e m' r.id ∧ m' ∈ getMembers w.c) := by
    intro m' h
    obtain ⟨a1, e, a2, g1, g2⟩ := confirm_since hs hl ha h
    exact ⟨a1, e, a2, g1, g2, confirms_member g2⟩
  rcases h1 with ⟨rfl, _⟩ | ⟨q', rfl, _, h6⟩
  · obtain ⟨ml, hml, hmp⟩ := members_of_strs cs (fun k hk => (hist_run hs evs).conf _ _ k h3 hk)
    have hnd := hm.book.nodup _ _ h3
    rw [← hml] at hnd h4
    refine ⟨m :: ml, List.nodup_cons.mpr ⟨fun hmem => h4 (List.mem_map_of_mem hmem),
      List.Nodup.of_map _ hnd⟩, ?_, ?_⟩
    · have := Nat.mod_le cs.length two32
      have hlen : ml.length = cs.length := by rw [← hml]; simp
      simp only [getNumConfirmations, List.length_cons]; omega
    · intro m' hm'
      refine since m' ?_
      rcases List.mem_cons.mp hm' with rfl | hm'
      · exact hlast
      · exact (hmp m' hm').snoc ev
  · have hcs : cs = [] := by
      rw [h6] at h3
      simp only [added, Book.add, UMap.get_insert_self, Option.some.injEq] at h3
      exact h3.symm
    subst hcs
    refine ⟨[m], by simp, ?_, ?_⟩
    · simpa [getNumConfirmations] using h5
    · intro m' hm'
      rw [List.mem_singleton] at hm'
      subst hm'
      exact since m' hlast

/-- The payment executes with its second confirmation, not with its first. -/
example : (step "ms" (run "ms" demoStart demoAdd) demoConfirm).issued =
      (0, ⟨"dave", [.transfer 5]⟩) :: (run "ms" demoStart demoAdd).issued ∧
    (run "ms" demoStart demoAdd).issued = [] ∧
    getNumConfirmations (run "ms" demoStart demoAdd).c = 2 := by decide +kernel

/-! ## C42 -/

/-- **C42, ids.** Two additions under the same id are one and the same event of the history. -/
theorem C42_ids_never_reused {self : AccountId} {w0 : World} {l1 l2 m1 m2 : List Ev} {e1 e2 : Ev}
    {k1 k2 : Member} {id : Nat} {q1 q2 : Request} (h : l1 ++ e1 :: l2 = m1 ++ e2 :: m2)
    (h1 : Adds self (run self w0 l1) e1 k1 id q1) (h2 : Adds self (run self w0 m1) e2 k2 id q2) :
    l1 = m1 ∧ e1 = e2 ∧ l2 = m2 ∧ k1 = k2 ∧ q1 = q2 := by
  obtain ⟨rfl, rfl, rfl⟩ := adds_unique h h1 h2
  obtain ⟨rfl, rfl⟩ := adds_same h1 h2
  exact ⟨rfl, rfl, rfl, rfl, rfl⟩

/-- **C42, at most once.** No request id occurs twice among the scheduled batches. -/
theorem C42_executed_at_most_once {self : AccountId} {ms : List Member} {n : Nat} {w : World}
    (h : Reachable self ms n w) : (w.issued.map Prod.fst).Nodup := by
  obtain ⟨w0, evs, hs, rfl⟩ := h
  exact (issuedInv_run (started_minv hs) (started_issuedInv hs) evs).nodup

/-- **C42, exactly as requested.** Every scheduled batch has a request, added earlier under its id, that
names its receiver and, action by action and in order, what the batch does. -/
theorem C42_executed_as_requested {self : AccountId} {ms : List Member} {n : Nat} {w0 : World}
    (hs : Started self ms n w0)
    (evs : List Ev) {id : Nat} {b : Batch} (hi : (id, b) ∈ (run self w0 evs).issued) :
    ∃ k q, Sometime self w0 evs (fun w e => Adds self w e k id q) ∧
      b.receiver = q.receiver ∧ b.actions = q.actions.filterMap (Action.toP self) := by
  induction evs using List.reverseRecOn with
  | nil =>
    have h3 := started_issued hs
    simp only [run] at hi; rw [h3] at hi; cases hi
  | append_singleton l ev ih =>
    by_cases he : (step self (run self w0 l) ev).issued = (run self w0 l).issued
    · rw [run_snoc, he] at hi
      obtain ⟨k, q, h1, h2⟩ := ih hi
      exact ⟨k, q, h1.snoc ev, h2⟩
    · obtain ⟨who, k, host, c, r, b', he', hr, hb, hst⟩ := issue_step he
      rw [run_snoc, hst] at hi
      rcases List.mem_cons.mp hi with hi | hi
      · cases hi
        obtain ⟨k', q, h1, h2, _⟩ := issue_origin hs he' hr hb
        exact ⟨k', q, h1, by rw [h2]; rfl, by rw [h2]; rfl⟩
      · obtain ⟨k', q, h1, h2⟩ := ih hi
        exact ⟨k', q, h1.snoc ev, h2⟩

/-- **C42, deletion.** A request that is deleted at some point of a history is not executed anywhere in
that history. -/
theorem C42_deleted_never_executed {self : AccountId} {ms : List Member} {n : Nat} {w0 : World}
    (hs : Started self ms n w0)
    (l1 l2 : List Ev) (ev : Ev) {m : Member} {id : Nat} (hd : Deletes self (run self w0 l1) ev m id)
    (b : Batch) :
    (id, b) ∉ (run self w0 (l1 ++ ev :: l2)).issued := by
  obtain ⟨who, k, host, r, _, rfl, hr⟩ := hd
  have hm := minv_run (self := self) l1 (started_minv hs)
  have hi := issuedInv_run (self := self) (started_minv hs) (started_issuedInv hs) l1
  have hst : step self (run self w0 l1) (.call who k 0 host (.deleteRequest id)) =
      { run self w0 l1 with c := r.c, issued := logged r (run self w0 l1).issued } := by
    simp only [step, hr]
  cases exec_ok.mp hr with
  | delete id m st cs h1 h2 h3 h4 h5 h6 =>
    have hg : Gone (step self (run self w0 l1) (.call who k 0 host (.deleteRequest id))) id := by
      rw [hst]
      refine ⟨hm.book.lt _ _ h3, ?_⟩
      simp [Book.remove]
    rw [run_append]
    intro hmem
    have := (gone_run l2 hg).2 b hmem
    rw [hst] at this
    have hgone := hi.gone _ this
    rw [hgone.2] at h3; cases h3

/-- **C42, gone for good.** After a request was executed, no later call can confirm or delete it. -/
theorem C42_executed_is_gone {self : AccountId} {ms : List Member} {n : Nat} {w0 : World}
    (hs : Started self ms n w0)
    (l1 l2 : List Ev) {id : Nat} {b : Batch} (hi : (id, b) ∈ (run self w0 l1).issued)
    (who : AccountId) (k : PublicKey) (att : Nat) (host : Bool) (r : Res) :
    exec (mkEnv self (run self w0 (l1 ++ l2)) who k att host) (run self w0 (l1 ++ l2)).c
        (.confirm id) ≠ .ok r ∧
    exec (mkEnv self (run self w0 (l1 ++ l2)) who k att host) (run self w0 (l1 ++ l2)).c
        (.deleteRequest id) ≠ .ok r := by
  have hinv := issuedInv_run (self := self) (started_minv hs) (started_issuedInv hs) l1
  have hg := (gone_run (self := self) l2 (hinv.gone _ hi)).1
  rw [← run_append] at hg
  constructor
  · intro h
    cases exec_ok.mp h with
    | confirm id s' b _ hcr =>
      cases hcr with
      | stored m st cs _ g _ _ _ _ => have := hg.2; rw [g] at this; cases this
      | executed m st cs _ g _ _ _ _ _ _ => have := hg.2; rw [g] at this; cases this
  · intro h
    cases exec_ok.mp h with
    | delete id m st cs h1 h2 h3 h4 h5 h6 => have := hg.2; rw [h3] at this; cases this

/-- The executed payment is in the log; another request of the same content gets another id. -/
example : (run "ms" demoStart (demoAdd ++ [demoConfirm] ++ demoAdd ++
      [.call "carol" "x" 0 true (.confirm 1)])).issued =
      [(1, ⟨"dave", [.transfer 5]⟩), (0, ⟨"dave", [.transfer 5]⟩)] := by decide +kernel

/-- A deletion that succeeds. -/
example : Deletes "ms" (run "ms" demoStart (demoAdd ++ [.tick 900000000001]))
    (.call "carol" "x" 0 true (.deleteRequest 0)) (.account "carol") 0 := by
  refine ⟨"carol", "x", true, _, by decide, rfl, exec_ok.mpr (.delete 0 (.account "carol")
    ⟨demoPay, .key "k1", 1000⟩ ["{\"public_key\":\"k1\"}"] rfl ?_ ?_ ?_ ?_ ?_)⟩ <;>
    decide +kernel

/-! ## C48 -/

/-- The number of pending requests that were made by the member `m`. -/
def numPending (s : State) (m : Member) : Nat :=
  (s.book.requests.entries.filter (fun p => p.2.signer = m)).length

theorem pending_eq (s : State) (m : Member) : s.book.pending m = numPending s m := by
  rw [Book.pending_eq_length]
  simp [Book.idsOf, numPending]

/-- **C48, consistency.** In every reachable state requests and confirmation sets have the same ids, no
id is listed twice, no confirmation set contains a member twice, the stored author and time of a
request are those of the call that added it, the author is still a member, every recorded
confirmation was made by the member whose text is recorded, and the counter of a member is the number
of its pending requests. -/
theorem C48_bookkeeping {self : AccountId} {ms : List Member} {n : Nat} {w0 : World}
    (hs : Started self ms n w0) (evs : List Ev) :
    let s := (run self w0 evs).c
    (listRequestIds s).Nodup ∧
    (∀ id, id ∈ listRequestIds s ↔ ∃ cs, getConfirmations s id = .ok cs) ∧
    (∀ id, id ∈ listRequestIds s ↔ ∃ q, getRequest s id = .ok q) ∧
    (∀ id cs, getConfirmations s id = .ok cs → cs.Nodup ∧
      ∀ k ∈ cs, ∃ m : Member, k = m.str ∧
        Sometime self w0 evs (fun w e => Confirms self w e m id)) ∧
    (∀ id st, s.book.requests.get id = some st → st.signer ∈ getMembers s ∧ Sometime self w0 evs
      (fun w e => Adds self w e st.signer id st.request ∧ w.now = st.added)) ∧
    ∀ m, getNumRequestsPerMember s m = numPending s m := by
  intro s
  have hm : MInv s := minv_run (self := self) evs (started_minv hs)
  have hh := hist_run (self := self) hs evs
  refine ⟨UMap.keys_nodup _, ?_, ?_, ?_, fun id st h => ⟨hm.author id st h, hh.req id st h⟩, ?_⟩
  · intro id
    have := hm.book.ids id
    unfold listRequestIds getConfirmations
    rw [UMap.mem_keys]
    cases h1 : s.book.requests.get id <;> cases h2 : s.book.confs.get id <;>
      simp [h1, h2, pure, Except.pure, throw, throwThe, MonadExceptOf.throw] at this ⊢
  · intro id
    unfold listRequestIds getRequest
    rw [UMap.mem_keys]
    cases h1 : s.book.requests.get id <;>
      simp [pure, Except.pure, throw, throwThe, MonadExceptOf.throw]
  · intro id cs hc
    unfold getConfirmations at hc
    cases h2 : s.book.confs.get id with
    | none => rw [h2] at hc; cases hc
    | some cs' =>
      rw [h2] at hc
      cases hc
      exact ⟨hm.book.nodup _ _ h2, fun k hk => hh.conf _ _ _ h2 hk⟩
  · intro k
    rw [← pending_eq]
    exact hm.book.cnt k

/-- Different members have different texts, so that a confirmation of one is never taken for one of
another (as is needed to read the confirmation sets). -/
theorem C48_texts_distinct (m m' : Member) (h : m.str = m'.str) : m = m' := str_inj h

/-- **C48, limit.** When a request is added, its author has at most `active_requests_limit` pending
requests afterwards, counting the new one. -/
theorem C48_limit_respected {self : AccountId} {ms : List Member} {n : Nat} {w : World}
    (h : Reachable self ms n w)
    {ev : Ev} {m : Member} {id : Nat} {q : Request} (ha : Adds self w ev m id q) :
    numPending w.c m < w.c.limit ∧ numPending (step self w ev).c m ≤ w.c.limit := by
  have hm := reachable_minv h
  obtain ⟨who, k, host, c, r, hact, rfl, hc, hr, rfl⟩ := ha
  have hr' := exec_ok.mp hr
  have hst : (step self w (.call who k 0 host c)).c = r.c := by simp only [step, hr]
  have key : ∀ m', CanAdd (mkEnv self w who k 0 host) w.c m' q →
      w.c.book.pending m < w.c.limit ∧
        (added (mkEnv self w who k 0 host) w.c m' q).book.pending m ≤ w.c.limit := by
    intro m' hca
    have hmm : m' = m := by
      have := (currentMember_ok.mp hca.member).1
      rw [← hact, ← this]; rfl
    subst hmm
    have := hca.lim
    rw [← hm.book.cnt, ← (hm.add hca).book.cnt]
    simp only [added, Book.add, UMap.get_insert_self, Option.getD_some]
    omega
  rw [hst, ← pending_eq, ← pending_eq]
  cases hr' with
  | add m' q' h1 h2 =>
    have hq : q' = q := by rcases hc with hc | hc <;> cases hc; rfl
    subst hq
    exact key _ h2
  | addConfirm m' q' s' b h1 h2 h3 =>
    have hq : q' = q := by rcases hc with hc | hc <;> cases hc; rfl
    subst hq
    obtain ⟨g1, g2⟩ := key _ h2
    obtain ⟨_, _, g3, _⟩ := conf_facts h3
    exact ⟨g1, Nat.le_trans (Book.pending_mono g3 m) g2⟩
  | delete id m' st cs h1 h2 h3 h4 h5 h6 => rcases hc with hc | hc <;> cases hc
  | confirm id s' b h1 h2 => rcases hc with hc | hc <;> cases hc

/-- **C48, adding.** `add_request` is accepted exactly when it comes from a member without deposit, the
numbers in it are in range, the member has fewer pending requests than the limit and ids are left;
there is no internal failure. -/
theorem C48_add_request_iff {self : AccountId} {ms : List Member} {n : Nat} {w : World}
    (h : Reachable self ms n w) (who : AccountId) (k : PublicKey) (att : Nat) (host : Bool)
    (q : Request) :
    (∃ r, exec (mkEnv self w who k att host) w.c (.addRequest q) = .ok r) ↔
      att = 0 ∧ actor self who k ∈ getMembers w.c ∧ q.actions.all Action.inRange = true ∧
      numPending w.c (actor self who k) < w.c.limit ∧ getRequestNonce w.c + 1 < two32 := by
  have hm := reachable_minv h
  have hcnt := hm.book.cnt (actor self who k)
  have hlim := hm.lim
  rw [pending_eq] at hcnt
  constructor
  · rintro ⟨r, hr⟩
    cases exec_ok.mp hr with
    | add m q h1 h2 =>
      obtain ⟨g1, g2⟩ := currentMember_ok.mp h2.member
      have hmm : actor self who k = m := g1
      subst hmm
      have h3 := h2.lim
      refine ⟨h1, g2, h2.range, ?_, h2.nonce⟩
      omega
  · rintro ⟨rfl, h2, h3, h4, h5⟩
    refine ⟨_, exec_ok.mpr (.add (actor self who k) q rfl
      ⟨h3, currentMember_ok.mpr ⟨rfl, h2⟩, ?_, ?_, h5⟩)⟩
    · omega
    · omega

theorem allowedAll_congr {self rc : AccountId} {num : Nat} (l : List Action) {s s' : State}
    (h1 : s.members = s'.members) (h2 : s.numConfirmations = s'.numConfirmations) :
    AllowedAll self rc num s l ↔ AllowedAll self rc num s' l := by
  induction l generalizing s s' with
  | nil => exact Iff.rfl
  | cons a t ih =>
    have hA : Allowed self rc num s a ↔ Allowed self rc num s' a := by
      cases a <;> simp only [Allowed, h1, h2]
    have hT : (applyAction s a).members = (applyAction s' a).members ∧
        (applyAction s a).numConfirmations = (applyAction s' a).numConfirmations := by
      cases a <;> simp [applyAction, h1, h2]
    simp only [AllowedAll, hA, ih hT.1 hT.2]

/-- Whether a request is executable depends on the members and the threshold only. -/
theorem executable_congr {self : AccountId} {q : Request} {s s' : State}
    (h1 : s.members = s'.members) (h2 : s.numConfirmations = s'.numConfirmations) :
    Executable self s q ↔ Executable self s' q := allowedAll_congr _ h1 h2

/-- **C48, confirming.** `confirm` is accepted exactly when it comes from a member without deposit, the
request is pending, the member has not confirmed it yet and, if this is the confirmation that executes
it, the request is executable and the host takes the batch. -/
theorem C48_confirm_iff {self : AccountId} {ms : List Member} {n : Nat} {w : World}
    (h : Reachable self ms n w) (who : AccountId) (k : PublicKey) (att : Nat) (host : Bool)
    (id : Nat) :
    (∃ r, exec (mkEnv self w who k att host) w.c (.confirm id) = .ok r) ↔
      att = 0 ∧ actor self who k ∈ getMembers w.c ∧
      ∃ q cs, getRequest w.c id = .ok q ∧ getConfirmations w.c id = .ok cs ∧
        (actor self who k).str ∉ cs ∧
        (getNumConfirmations w.c ≤ cs.length + 1 → Executable self w.c q ∧ host = true) := by
  have hm := reachable_minv h
  constructor
  · rintro ⟨r, hr⟩
    cases exec_ok.mp hr with
    | confirm id s' b h1 h2 =>
      cases h2 with
      | stored m st cs g1 g2 g3 g4 g5 g6 =>
        obtain ⟨k1, k2⟩ := currentMember_ok.mp g1
        have hmm : actor self who k = m := k1
        subst hmm
        refine ⟨h1, k2, st.request, cs, by simp [getRequest, g2, pure, Except.pure],
          by simp [getConfirmations, g3, pure, Except.pure], g4, fun hle => ?_⟩
        have := hm.len id cs g3
        rw [Nat.mod_eq_of_lt (by omega)] at g6
        simp only [getNumConfirmations] at hle
        omega
      | executed m st cs g1 g2 g3 g4 g5 g6 g7 g8 =>
        obtain ⟨k1, k2⟩ := currentMember_ok.mp g1
        have hmm : actor self who k = m := k1
        subst hmm
        exact ⟨h1, k2, st.request, cs, by simp [getRequest, g2, pure, Except.pure],
          by simp [getConfirmations, g3, pure, Except.pure], g4,
          fun _ => ⟨(executable_congr (s := { w.c with book := w.c.book.remove Member.str id st })
            (s' := w.c) rfl rfl).mp g7, g8⟩⟩
  · rintro ⟨rfl, h2, q, cs, h3, h4, h5, h6⟩
    unfold getRequest at h3
    unfold getConfirmations at h4
    cases hg : w.c.book.requests.get id with
    | none => rw [hg] at h3; cases h3
    | some st =>
      cases hc : w.c.book.confs.get id with
      | none => rw [hc] at h4; cases h4
      | some cs' =>
        rw [hg] at h3; rw [hc] at h4
        cases h3; cases h4
        have hlen := hm.len id cs hc
        have hmod : cs.length % two32 = cs.length := Nat.mod_eq_of_lt (by omega)
        have hcur : currentMember (mkEnv self w who k 0 host) w.c = some (actor self who k) :=
          currentMember_ok.mpr ⟨rfl, h2⟩
        by_cases hn : getNumConfirmations w.c ≤ cs.length + 1
        · obtain ⟨h7, h8⟩ := h6 hn
          refine ⟨_, exec_ok.mpr (.confirm id _ _ rfl (.executed _ st cs hcur hg hc h5 ?_ ?_
            ((executable_congr (s := { w.c with book := w.c.book.remove Member.str id st })
              (s' := w.c) rfl rfl).mpr h7) h8))⟩
          · rw [hmod]; exact hlen
          · rw [hmod]; exact hn
        · refine ⟨_, exec_ok.mpr (.confirm id _ _ rfl (.stored _ st cs hcur hg hc h5 ?_ ?_))⟩
          · rw [hmod]; exact hlen
          · rw [hmod]; simpa [getNumConfirmations] using hn

/-- **C48, decision.** A successful `confirm` executes the request exactly when it brings the number of
confirmations to the threshold; otherwise it only records the confirmation. -/
theorem C48_confirm_decides {self : AccountId} {ms : List Member} {n : Nat} {w : World}
    (h : Reachable self ms n w) (who : AccountId) (k : PublicKey) (host : Bool) (id : Nat) {r : Res}
    {cs : List String} (hcs : getConfirmations w.c id = .ok cs)
    (hr : exec (mkEnv self w who k 0 host) w.c (.confirm id) = .ok r) :
    (getNumConfirmations w.c ≤ cs.length + 1 → r.batch ≠ none ∧ id ∉ listRequestIds r.c) ∧
    (cs.length + 1 < getNumConfirmations w.c → r.batch = none ∧
      getConfirmations r.c id = .ok (cs ++ [(actor self who k).str]) ∧
      getRequest r.c id = getRequest w.c id ∧ getMembers r.c = getMembers w.c) := by
  have hm := reachable_minv h
  cases exec_ok.mp hr with
  | confirm id s' b h1 h2 =>
    cases h2 with
    | stored m st cs' g1 g2 g3 g4 g5 g6 =>
      have hmm : actor self who k = m := (currentMember_ok.mp g1).1
      subst hmm
      have hcc : cs' = cs := by simpa [getConfirmations, g3, pure, Except.pure] using hcs
      subst hcc
      have := hm.len id cs' g3
      rw [Nat.mod_eq_of_lt (by omega)] at g6
      refine ⟨fun hle => absurd hle (by simp only [getNumConfirmations]; omega),
        fun _ => ⟨rfl, ?_, rfl, rfl⟩⟩
      simp [getConfirmations, Book.confirm, pure, Except.pure]
    | executed m st cs' g1 g2 g3 g4 g5 g6 g7 g8 =>
      have hcc : cs' = cs := by simpa [getConfirmations, g3, pure, Except.pure] using hcs
      subst hcc
      have hlen := hm.len id cs' g3
      have hmod : cs'.length % two32 = cs'.length := Nat.mod_eq_of_lt (by omega)
      refine ⟨fun _ => ⟨by simp, ?_⟩, fun hlt => absurd g6 (by
        rw [hmod]; simp only [getNumConfirmations] at hlt; omega)⟩
      have hb := conf_batch (ConfRel.executed m st cs' g1 g2 g3 g4 g5 g6 g7 g8)
      obtain ⟨_, _, _, _, _, _, _, _, _, _, hb, _⟩ := hb
      unfold listRequestIds
      rw [← UMap.get_eq_none]
      exact hb

/-- A reachable state with a pending request and one confirmation; the limit is 12. -/
example : Reachable "ms" demoMembers 2 (run "ms" demoStart demoAdd) ∧
    numPending (run "ms" demoStart demoAdd).c (.key "k1") = 1 ∧
    (run "ms" demoStart demoAdd).c.limit = 12 ∧
    (run "ms" demoStart demoAdd).c.book.confs.get 0 = some [(Member.key "k1").str] ∧
    (step "ms" (run "ms" demoStart demoAdd) (.call "bob" "x" 0 true (.addRequest demoPay))).c.book.nonce
      = 2 :=
  ⟨⟨_, _, demo_started, rfl⟩, by decide +kernel, by decide +kernel, by decide +kernel,
    by decide +kernel⟩

/-! ## C44 -/

/-- **C44.** `delete_request` succeeds exactly when it comes from a member (any member) without deposit,
and more than 900 seconds of block time have passed since the pending request was added. It removes
this request with its confirmations, takes one off its author's counter, and changes nothing else. -/
theorem C44_delete_request_iff {self : AccountId} {ms : List Member} {n : Nat} {w : World}
    (h : Reachable self ms n w)
    (hnow : w.now < two64) (who : AccountId) (k : PublicKey) (att : Nat) (host : Bool) (id : Nat)
    (r : Res) :
    exec (mkEnv self w who k att host) w.c (.deleteRequest id) = .ok r ↔
      att = 0 ∧ actor self who k ∈ getMembers w.c ∧ ∃ st, w.c.book.requests.get id = some st ∧
        st.added + 15 * 60 * 1000000000 < w.now ∧
        r = ⟨{ w.c with book := w.c.book.remove Member.str id st }, id, none⟩ := by
  have hm := reachable_minv h
  constructor
  · intro hr
    cases exec_ok.mp hr with
    | delete id m st cs h1 h2 h3 h4 h5 h6 =>
      obtain ⟨k1, k2⟩ := currentMember_ok.mp h2
      have hmm : actor self who k = m := k1
      subst hmm
      exact ⟨h1, k2, st, h3, h6, rfl⟩
  · rintro ⟨rfl, h2, st, h3, h4, rfl⟩
    have hids := hm.book.ids id
    rw [h3] at hids
    obtain ⟨cs, hcs⟩ := Option.isSome_iff_exists.mp hids.symm
    refine exec_ok.mpr (.delete id _ st cs rfl (currentMember_ok.mpr ⟨rfl, h2⟩) h3 hcs ?_ h4)
    have : requestCooldown = 15 * 60 * 1000000000 := by decide
    omega

/-- **C44, effect.** What a deletion changes, in terms of the views. -/
theorem C44_delete_request_effect {self : AccountId} {ms : List Member} {n : Nat} {w : World}
    (h : Reachable self ms n w)
    {ev : Ev} {m : Member} {id : Nat} (hd : Deletes self w ev m id) :
    let s := w.c; let s' := (step self w ev).c
    (∀ id', getRequest s' id' = if id' = id then .error "No such request" else getRequest s id') ∧
    (∀ id', getConfirmations s' id' =
      if id' = id then .error "No such request" else getConfirmations s id') ∧
    (∀ st, s.book.requests.get id = some st →
      getNumRequestsPerMember s' st.signer + 1 = getNumRequestsPerMember s st.signer ∧
      ∀ k, k ≠ st.signer → getNumRequestsPerMember s' k = getNumRequestsPerMember s k) ∧
    getNumConfirmations s' = getNumConfirmations s ∧ s'.limit = s.limit ∧
    getMembers s' = getMembers s ∧
    getRequestNonce s' = getRequestNonce s ∧ (step self w ev).issued = w.issued := by
  intro s s'
  have hm := reachable_minv h
  obtain ⟨who, k, host, r, _, rfl, hr⟩ := hd
  have hst : step self w (.call who k 0 host (.deleteRequest id)) =
      { w with c := r.c, issued := logged r w.issued } := by simp only [step, hr]
  have hs' : s' = r.c := by show (step self w _).c = _; rw [hst]
  rw [hs', hst]
  cases exec_ok.mp hr with
  | delete id m' st cs h1 h2 h3 h4 h5 h6 =>
    refine ⟨?_, ?_, ?_, rfl, rfl, rfl, rfl, rfl⟩
    · intro id'
      simp only [getRequest, Book.remove, UMap.get_remove]
      by_cases hid : id = id'
      · subst hid; simp [throw, throwThe, MonadExceptOf.throw]
      · rw [if_neg hid, if_neg (fun h => hid h.symm)]
    · intro id'
      simp only [getConfirmations, Book.remove, UMap.get_remove]
      by_cases hid : id = id'
      · subst hid; simp [throw, throwThe, MonadExceptOf.throw]
      · rw [if_neg hid, if_neg (fun h => hid h.symm)]
    · intro st' hst'
      have : st = st' := by rw [h3] at hst'; exact Option.some.inj hst'
      subst this
      have hpos := Book.pending_pos h3
      have hcnt := hm.book.cnt st.signer
      refine ⟨?_, ?_⟩
      · simp only [getNumRequestsPerMember, Book.remove, UMap.get_insert_self, Option.getD_some]
        show (w.c.book.counts.get st.signer.str).getD 0 - 1 + 1 =
          (w.c.book.counts.get st.signer.str).getD 0
        omega
      · intro k' hk'
        simp only [getNumRequestsPerMember, Book.remove, UMap.get_insert]
        rw [if_neg (fun h => hk' (str_inj h).symm)]

/-- **C44, in the history.** A deleted request was added more than 900 seconds of block time before. -/
theorem C44_deleted_after_cooldown {self : AccountId} {ms : List Member} {n : Nat} {w0 : World}
    (hs : Started self ms n w0)
    (evs : List Ev) {ev : Ev} {m : Member} {id : Nat} (hd : Deletes self (run self w0 evs) ev m id) :
    ∃ k q, Sometime self w0 evs (fun w e => Adds self w e k id q ∧
      w.now + 15 * 60 * 1000000000 < (run self w0 evs).now) := by
  obtain ⟨who, k, host, r, _, rfl, hr⟩ := hd
  cases exec_ok.mp hr with
  | delete id m' st cs h1 h2 h3 h4 h5 h6 =>
    obtain ⟨l1, e1, l2, hl, ha, ht⟩ := (hist_run hs evs).req _ _ h3
    refine ⟨st.signer, st.request, l1, e1, l2, hl, ha, ?_⟩
    rw [ht]; exact h6

/-- Not at exactly 900 seconds, but one nanosecond later. -/
example : (step "ms" (run "ms" demoStart (demoAdd ++ [.tick 900000000000]))
      (.call "carol" "x" 0 true (.deleteRequest 0))).c.book.requests.len = 1 ∧
    (step "ms" (run "ms" demoStart (demoAdd ++ [.tick 900000000001]))
      (.call "carol" "x" 0 true (.deleteRequest 0))).c.book.requests.len = 0 := by decide +kernel

/-! ## C50 -/

/-- The members after adding and deleting, in order (specification). -/
def membersAfter (isM : Member → Prop) : List Action → Member → Prop
  | [] => isM
  | .addMember m :: t => membersAfter (fun x => x = m ∨ isM x) t
  | .deleteMember m :: t => membersAfter (fun x => x ≠ m ∧ isM x) t
  | _ :: t => membersAfter isM t

theorem membersAfter_congr (l : List Action) {P Q : Member → Prop} (h : ∀ x, P x ↔ Q x) (x : Member) :
    membersAfter P l x ↔ membersAfter Q l x := by
  induction l generalizing P Q with
  | nil => exact h x
  | cons a t ih =>
    cases a with
    | addMember m => exact ih (fun x => by rw [h x])
    | deleteMember m => exact ih (fun x => by rw [h x])
    | _ => exact ih h

theorem apply_membersAfter (l : List Action) (s : State) (x : Member) :
    x ∈ getMembers (applyActions s l) ↔ membersAfter (· ∈ getMembers s) l x := by
  induction l generalizing s with
  | nil => exact Iff.rfl
  | cons a t ih =>
    rw [applyActions, ih]
    cases a with
    | addMember m =>
      refine membersAfter_congr t (fun y => ?_) x
      simp only [getMembers, applyAction, UMap.mem_keys_insert]
    | deleteMember m =>
      refine membersAfter_congr t (fun y => ?_) x
      simp only [getMembers, applyAction, UMap.mem_keys_remove]
    | _ => exact Iff.rfl

/-- What executing the request does to the configuration. -/
def ConfigEffect (s s' : State) (q : Request) : Prop :=
  ((∃ m, q.actions = [.setNumConfirmations m] ∧ s'.numConfirmations = m ∧ s'.limit = s.limit) ∨
   (∃ m, q.actions = [.setActiveRequestsLimit m] ∧ s'.limit = m ∧
    s'.numConfirmations = s.numConfirmations) ∨
   ((∀ a ∈ q.actions, (∀ m, a ≠ .setNumConfirmations m) ∧ (∀ m, a ≠ .setActiveRequestsLimit m)) ∧
    s'.numConfirmations = s.numConfirmations ∧ s'.limit = s.limit)) ∧
  ∀ x, x ∈ getMembers s' ↔ membersAfter (· ∈ getMembers s) q.actions x

theorem allowedAll_mem {self rc : AccountId} {num : Nat} (l : List Action) {s : State}
    (h : AllowedAll self rc num s l) {a : Action} (ha : a ∈ l) :
    (a.isSet = true → rc = self ∧ num = 1) ∧ (a.isMember = true → rc = self) := by
  induction l generalizing s with
  | nil => cases ha
  | cons b t ih =>
    rcases List.mem_cons.mp ha with rfl | ha
    · have := h.1
      cases a with
      | setNumConfirmations n => exact ⟨fun _ => this, fun h => (by cases h)⟩
      | setActiveRequestsLimit n => exact ⟨fun _ => this, fun h => (by cases h)⟩
      | addMember m => exact ⟨fun h => (by cases h), fun _ => this⟩
      | deleteMember m => exact ⟨fun h => (by cases h), fun _ => this.1⟩
      | _ => exact ⟨fun h => (by cases h), fun h => (by cases h)⟩
    · exact ih h.2 ha

theorem config_effect {self : AccountId} {q : Request} (s s1 : State) (he : Executable self s1 q)
    (h1 : s1.numConfirmations = s.numConfirmations) (h2 : s1.limit = s.limit)
    (h3 : s1.members = s.members) :
    ConfigEffect s (applyActions s1 q.actions) q := by
  have hmem : getMembers s1 = getMembers s := by unfold getMembers; rw [h3]
  refine ⟨?_, fun x => by rw [apply_membersAfter, hmem]⟩
  by_cases hn : ∀ a ∈ q.actions, a.isSet = false
  · obtain ⟨g1, g2⟩ := apply_config q.actions s1 hn
    refine .inr (.inr ⟨?_, g1.trans h1, g2.trans h2⟩)
    intro a ha
    refine ⟨fun m hm => ?_, fun m hm => ?_⟩
    · have := hn a ha; rw [hm] at this; cases this
    · have := hn a ha; rw [hm] at this; cases this
  · push Not at hn
    obtain ⟨a, ha, hp⟩ := hn
    have hp' : a.isSet = true := by simpa using hp
    have hal := (allowedAll_mem _ he ha).1 hp'
    have single : q.actions = [a] := by
      obtain ⟨x, hx⟩ := List.length_eq_one_iff.mp hal.2
      rw [hx] at ha ⊢
      rw [List.mem_singleton.mp ha]
    rw [single]
    cases a with
    | setNumConfirmations m => exact .inl ⟨m, rfl, rfl, h2⟩
    | setActiveRequestsLimit m => exact .inr (.inl ⟨m, rfl, rfl, h1⟩)
    | _ => cases hp'

/-- **C50.** Every event either leaves `num_confirmations`, `active_requests_limit` and the members
unchanged, or executes a request (added before under the logged id; with enough confirmations by C46)
whose receiver is the contract itself and which asks for the change: a single action that sets the
threshold or the limit, or additions and deletions of members with exactly that effect. -/
theorem C50_configuration_changes {self : AccountId} {ms : List Member} {n : Nat} {w0 : World}
    (hs : Started self ms n w0)
    (evs : List Ev) (ev : Ev)
    (hch : (step self (run self w0 evs) ev).c.numConfirmations ≠ (run self w0 evs).c.numConfirmations ∨
      (step self (run self w0 evs) ev).c.limit ≠ (run self w0 evs).c.limit ∨
      ∃ x, ¬ (x ∈ getMembers (step self (run self w0 evs) ev).c ↔
        x ∈ getMembers (run self w0 evs).c)) :
    ∃ id m q b, Sometime self w0 (evs ++ [ev]) (fun w e => Adds self w e m id q) ∧
      (step self (run self w0 evs) ev).issued = (id, b) :: (run self w0 evs).issued ∧
      q.receiver = self ∧
      ConfigEffect (run self w0 evs).c (step self (run self w0 evs) ev).c q := by
  by_cases hi : (step self (run self w0 evs) ev).issued = (run self w0 evs).issued
  · obtain ⟨h1, h2, h3⟩ := quiet_config hi
    rcases hch with h | h | ⟨x, h⟩
    · exact absurd h1 h
    · exact absurd h2 h
    · exact absurd (by unfold getMembers; rw [h3]) h
  · obtain ⟨who, k, host, c, r, b, he, hr, hb, hst⟩ := issue_step hi
    obtain ⟨k', q, h1, h2, s1, st, h4, h5, h6, h7, h8, h9⟩ := issue_origin hs he hr hb
    have heff := config_effect (run self w0 evs).c
      { s1 with book := s1.book.remove Member.str r.id st } h8 h5 h6 h7
    rw [← h9] at heff
    refine ⟨r.id, k', q, b, h1, by rw [hst], ?_, by rw [hst]; exact heff⟩
    by_contra hself
    have hq : ∀ a ∈ q.actions, a.isSet = false ∧ a.isMember = false := by
      intro a ha
      obtain ⟨g1, g2⟩ := allowedAll_mem _ h8 ha
      constructor
      · cases hx : a.isSet with
        | false => rfl
        | true => exact absurd (g1 hx).1 hself
      · cases hx : a.isMember with
        | false => rfl
        | true => exact absurd (g2 hx) hself
    obtain ⟨e1, e2⟩ := apply_config q.actions
      { s1 with book := s1.book.remove Member.str r.id st } (fun a ha => (hq a ha).1)
    have e3 := apply_members q.actions
      { s1 with book := s1.book.remove Member.str r.id st } (fun a ha => (hq a ha).2)
    rw [← h9] at e1 e2 e3
    rw [hst] at hch
    rcases hch with h | h | ⟨x, h⟩
    · exact h (e1.trans h5)
    · exact h (e2.trans h6)
    · exact h (by simp only [getMembers]; rw [e3]; simp only; rw [h7])

/-- **C50, effect.** Executing a request has exactly the effect on threshold, limit and members that its
actions ask for. -/
theorem C50_executed_request_takes_effect {self : AccountId} {ms : List Member} {n : Nat} {w0 : World}
    (hs : Started self ms n w0) (evs : List Ev) (ev : Ev) {id : Nat} {b : Batch}
    (hi : (step self (run self w0 evs) ev).issued = (id, b) :: (run self w0 evs).issued) :
    ∃ m q, Sometime self w0 (evs ++ [ev]) (fun w e => Adds self w e m id q) ∧
      ConfigEffect (run self w0 evs).c (step self (run self w0 evs) ev).c q := by
  have hne : (step self (run self w0 evs) ev).issued ≠ (run self w0 evs).issued := by
    intro h; rw [h] at hi; exact absurd (congrArg List.length hi) (by simp)
  obtain ⟨who, k, host, c, r, b', he, hr, hb, hst⟩ := issue_step hne
  have hid : r.id = id := by rw [hst] at hi; simp only [List.cons.injEq, Prod.mk.injEq] at hi; tauto
  subst hid
  obtain ⟨k', q, h1, h2, s1, st, h4, h5, h6, h7, h8, h9⟩ := issue_origin hs he hr hb
  have heff := config_effect (run self w0 evs).c
    { s1 with book := s1.book.remove Member.str r.id st } h8 h5 h6 h7
  rw [← h9] at heff
  refine ⟨k', q, h1, ?_⟩
  rw [hst]; exact heff

/-- The threshold rises from two to three; `dave` and a key join; the key member leaves. -/
example :
    let last : Nat → Ev := fun id => .call "carol" "x" 0 true (.confirm id)
    let add : Request → List Ev := fun q => [.call "bob" "x" 0 true (.addRequestAndConfirm q)]
    (step "ms" (run "ms" demoStart (add demoThree)) (last 0)).c.numConfirmations = 3 ∧
    getMembers (step "ms" (run "ms" demoStart (add demoLet)) (last 0)).c =
      [.key "k1", .account "bob", .account "carol", .account "dave", .key "k2"] ∧
    getMembers (step "ms" (run "ms" demoStart (add demoDrop)) (last 0)).c =
      [.account "carol", .account "bob"] ∧
    (step "ms" (run "ms" demoStart (add demoDrop)) (last 0)).issued =
      [(0, ⟨"ms", [.deleteKey "k1", .transfer 1]⟩)] := by
  decide +kernel

end Verif.Multisig2
