import Verif.Multisig.Demo

/-!
# The multisig contract: property theorems

C41 (enough distinct confirmations), C42 (at most once, exactly as requested), C43 (bookkeeping), C44
(deletion), C50 (configuration). The statements use the calls of a history (`Adds`, `Confirms`,
`Deletes`) and the log of scheduled batches.
-/

namespace Verif.Multisig

open Verif

/-! ## C41 -/

/-- **C41.** Whenever an event schedules the actions of a request, the request was added before (or by
this very call), and since then at least `num_confirmations` (its value before the event) distinct
keys have each made a successful confirming call for this request, through the account itself. -/
theorem C41_enough_distinct_confirmations {self : AccountId} {n : Nat} {w0 : World}
    (hs : Started n w0) (evs : List Ev) (ev : Ev) {id : Nat} {b : Batch}
    (hi : (step self (run self w0 evs) ev).issued = (id, b) :: (run self w0 evs).issued) :
    ∃ l1 e1 l2 k0 q, evs ++ [ev] = l1 ++ e1 :: l2 ∧ Adds self (run self w0 l1) e1 k0 id q ∧
      ∃ keys : List PublicKey, keys.Nodup ∧
        getNumConfirmations (run self w0 evs).c ≤ keys.length ∧
        ∀ k ∈ keys, Sometime self (run self w0 l1) (e1 :: l2)
          (fun w e => Confirms self w e k id) := by
  have hne : (step self (run self w0 evs) ev).issued ≠ (run self w0 evs).issued := by
    intro h; rw [h] at hi; exact absurd (congrArg List.length hi) (by simp)
  obtain ⟨k, host, c, r, b', he, hr, hb, hst⟩ := issue_step hne
  have hid : r.id = id := by rw [hst] at hi; simp only [List.cons.injEq, Prod.mk.injEq] at hi; tauto
  subst hid
  obtain ⟨k0, q, ⟨l1, e1, l2, hl, ha⟩, _⟩ := issue_origin hs he hr hb
  refine ⟨l1, e1, l2, k0, q, hl, ha, ?_⟩
  obtain ⟨s1, st, cs, h1, h2, h3, h4, h5, _⟩ := exec_batch hr hb
  have hm := minv_run (self := self) evs (started_minv hs)
  have hlast : Sometime self w0 (evs ++ [ev]) (fun w e => Confirms self w e k r.id) := by
    refine Sometime.last ⟨host, r, ?_⟩
    rcases h1 with ⟨_, rfl⟩ | ⟨q', _, rfl, _⟩
    · exact .inl ⟨he, exec_ok.mpr hr⟩
    · exact .inr ⟨q', he, exec_ok.mpr hr, rfl⟩
  rcases h1 with ⟨rfl, _⟩ | ⟨q', rfl, _, h6⟩
  · refine ⟨k :: cs, List.nodup_cons.mpr ⟨h4, hm.book.nodup _ _ h3⟩, ?_, ?_⟩
    · have := Nat.mod_le cs.length two32
      simp only [getNumConfirmations, List.length_cons]; omega
    · intro k' hk'
      refine confirm_since hs hl ha ?_
      rcases List.mem_cons.mp hk' with rfl | hk'
      · exact hlast
      · exact ((hist_run hs evs).conf _ _ _ h3 hk').snoc ev
  · have hcs : cs = [] := by
      rw [h6] at h3
      simp only [added, Book.add, UMap.get_insert_self, Option.some.injEq] at h3
      exact h3.symm
    subst hcs
    refine ⟨[k], by simp, ?_, ?_⟩
    · simpa [getNumConfirmations] using h5
    · intro k' hk'
      rw [List.mem_singleton] at hk'
      subst hk'
      exact confirm_since hs hl ha hlast

/-- The payment executes with its second confirmation, not with its first. -/
example : (step "ms" (run "ms" demoStart demoAdd) demoConfirm).issued =
      (0, ⟨"bob", [.transfer 5]⟩) :: (run "ms" demoStart demoAdd).issued ∧
    (run "ms" demoStart demoAdd).issued = [] ∧
    getNumConfirmations (run "ms" demoStart demoAdd).c = 2 := by decide +kernel

/-! ## C42 -/

/-- **C42, ids.** Two additions under the same id are one and the same event of the history. -/
theorem C42_ids_never_reused {self : AccountId} {w0 : World} {l1 l2 m1 m2 : List Ev} {e1 e2 : Ev}
    {k1 k2 : PublicKey} {id : Nat} {q1 q2 : Request} (h : l1 ++ e1 :: l2 = m1 ++ e2 :: m2)
    (h1 : Adds self (run self w0 l1) e1 k1 id q1) (h2 : Adds self (run self w0 m1) e2 k2 id q2) :
    l1 = m1 ∧ e1 = e2 ∧ l2 = m2 ∧ k1 = k2 ∧ q1 = q2 := by
  obtain ⟨rfl, rfl, rfl⟩ := adds_unique h h1 h2
  obtain ⟨rfl, rfl⟩ := adds_same h1 h2
  exact ⟨rfl, rfl, rfl, rfl, rfl⟩

/-- **C42, at most once.** No request id occurs twice among the scheduled batches. -/
theorem C42_executed_at_most_once {self : AccountId} {n : Nat} {w : World}
    (h : Reachable self n w) : (w.issued.map Prod.fst).Nodup := by
  obtain ⟨w0, evs, hs, rfl⟩ := h
  exact (issuedInv_run (started_minv hs) (started_issuedInv hs) evs).nodup

/-- **C42, exactly as requested.** Every scheduled batch has a request, added earlier under its id, that
names its receiver and, action by action and in order, what the batch does. -/
theorem C42_executed_as_requested {self : AccountId} {n : Nat} {w0 : World} (hs : Started n w0)
    (evs : List Ev) {id : Nat} {b : Batch} (hi : (id, b) ∈ (run self w0 evs).issued) :
    ∃ k q, Sometime self w0 evs (fun w e => Adds self w e k id q) ∧
      b.receiver = q.receiver ∧ b.actions = q.actions.filterMap Action.toP ∧
      Executable self q := by
  induction evs using List.reverseRecOn with
  | nil =>
    obtain ⟨_, _, h3, _⟩ := started_empty hs
    simp only [run] at hi; rw [h3] at hi; cases hi
  | append_singleton l ev ih =>
    by_cases he : (step self (run self w0 l) ev).issued = (run self w0 l).issued
    · rw [run_snoc, he] at hi
      obtain ⟨k, q, h1, h2⟩ := ih hi
      exact ⟨k, q, h1.snoc ev, h2⟩
    · obtain ⟨k, host, c, r, b', he', hr, hb, hst⟩ := issue_step he
      rw [run_snoc, hst] at hi
      rcases List.mem_cons.mp hi with hi | hi
      · cases hi
        obtain ⟨k', q, h1, h2, h3, _⟩ := issue_origin hs he' hr hb
        exact ⟨k', q, h1, by rw [h2]; rfl, by rw [h2]; rfl, h3⟩
      · obtain ⟨k', q, h1, h2⟩ := ih hi
        exact ⟨k', q, h1.snoc ev, h2⟩

/-- **C42, deletion.** A request that is deleted at some point of a history is not executed anywhere in
that history. -/
theorem C42_deleted_never_executed {self : AccountId} {n : Nat} {w0 : World} (hs : Started n w0)
    (l1 l2 : List Ev) (ev : Ev) {id : Nat} (hd : Deletes self (run self w0 l1) ev id) (b : Batch) :
    (id, b) ∉ (run self w0 (l1 ++ ev :: l2)).issued := by
  obtain ⟨k, host, r, rfl, hr⟩ := hd
  have hm := minv_run (self := self) l1 (started_minv hs)
  have hi := issuedInv_run (self := self) (started_minv hs) (started_issuedInv hs) l1
  have hst : step self (run self w0 l1) (.call self k 0 host (.deleteRequest id)) =
      { run self w0 l1 with c := r.c, issued := logged r (run self w0 l1).issued } := by
    simp only [step, hr]
  cases exec_ok.mp hr with
  | delete id st cs h1 h2 h3 h4 h5 h6 =>
    have hg : Gone (step self (run self w0 l1) (.call self k 0 host (.deleteRequest id))) id := by
      rw [hst]
      refine ⟨hm.book.lt _ _ h3, ?_⟩
      simp [Book.remove]
    rw [run_append]
    intro hmem
    have := (gone_run l2 hg).2 b hmem
    rw [hst] at this
    have hgone := hi.gone _ this
    rw [hgone.2] at h3; cases h3

/-- **C42, gone for good.** After a request was executed, no later call can confirm or delete it. -/
theorem C42_executed_is_gone {self : AccountId} {n : Nat} {w0 : World} (hs : Started n w0)
    (l1 l2 : List Ev) {id : Nat} {b : Batch} (hi : (id, b) ∈ (run self w0 l1).issued)
    (who : AccountId) (k : PublicKey) (att : Nat) (host : Bool) (r : Res) :
    exec (mkEnv self (run self w0 (l1 ++ l2)) who k att host) (run self w0 (l1 ++ l2)).c
        (.confirm id) ≠ .ok r ∧
    exec (mkEnv self (run self w0 (l1 ++ l2)) who k att host) (run self w0 (l1 ++ l2)).c
        (.deleteRequest id) ≠ .ok r := by
  have hinv := issuedInv_run (self := self) (started_minv hs) (started_issuedInv hs) l1
  have hg := (gone_run (self := self) l2 (hinv.gone _ hi)).1
  rw [← run_append] at hg
  constructor
  · intro h
    cases exec_ok.mp h with
    | confirm id s' b _ hcr =>
      cases hcr with
      | stored st cs _ g _ _ _ _ => have := hg.2; rw [g] at this; cases this
      | executed st cs _ g _ _ _ _ _ _ => have := hg.2; rw [g] at this; cases this
  · intro h
    cases exec_ok.mp h with
    | delete id st cs h1 h2 h3 h4 h5 h6 => have := hg.2; rw [h3] at this; cases this

/-- The executed payment is in the log; another request of the same content gets another id. -/
example : (run "ms" demoStart (demoAdd ++ [demoConfirm] ++ demoAdd ++
      [.call "ms" "k2" 0 true (.confirm 1)])).issued =
      [(1, ⟨"bob", [.transfer 5]⟩), (0, ⟨"bob", [.transfer 5]⟩)] := by decide +kernel

/-- A deletion that succeeds. -/
example : Deletes "ms" (run "ms" demoStart (demoAdd ++ [.tick 900000000001]))
    (.call "ms" "k3" 0 true (.deleteRequest 0)) 0 := by
  refine ⟨"k3", true, _, rfl, exec_ok.mpr (.delete 0 ⟨demoPay, "k1", 1000⟩ ["k1"] rfl rfl ?_ ?_ ?_ ?_)⟩ <;>
    decide +kernel

/-! ## C43 -/

/-- The number of pending requests that were made with the key `k`. -/
def numPending (s : State) (k : PublicKey) : Nat :=
  (s.book.requests.entries.filter (fun p => p.2.signer = k)).length

theorem pending_eq (s : State) (k : PublicKey) : s.book.pending k = numPending s k := by
  rw [Book.pending_eq_length]
  simp [Book.idsOf, numPending]

/-- **C43, consistency.** In every reachable state requests and confirmation sets have the same ids, no
id is listed twice, no confirmation set contains a key twice, the stored author and time of a request
are those of the call that added it, every recorded confirmation was made by that key, and the counter
of a key is the number of its pending requests. -/
theorem C43_bookkeeping {self : AccountId} {n : Nat} {w0 : World} (hs : Started n w0)
    (evs : List Ev) :
    let s := (run self w0 evs).c
    (listRequestIds s).Nodup ∧
    (∀ id, id ∈ listRequestIds s ↔ ∃ cs, getConfirmations s id = .ok cs) ∧
    (∀ id, id ∈ listRequestIds s ↔ ∃ q, getRequest s id = .ok q) ∧
    (∀ id cs, getConfirmations s id = .ok cs → cs.Nodup ∧
      ∀ k ∈ cs, Sometime self w0 evs (fun w e => Confirms self w e k id)) ∧
    (∀ id st, s.book.requests.get id = some st → Sometime self w0 evs
      (fun w e => Adds self w e st.signer id st.request ∧ w.now = st.added)) ∧
    ∀ k, getNumRequestsPk s k = numPending s k := by
  intro s
  have hm : MInv s := minv_run (self := self) evs (started_minv hs)
  have hh := hist_run (self := self) hs evs
  refine ⟨UMap.keys_nodup _, ?_, ?_, ?_, hh.req, ?_⟩
  · intro id
    have := hm.book.ids id
    unfold listRequestIds getConfirmations
    rw [UMap.mem_keys]
    cases h1 : s.book.requests.get id <;> cases h2 : s.book.confs.get id <;>
      simp [h1, h2, pure, Except.pure, throw, throwThe, MonadExceptOf.throw] at this ⊢
  · intro id
    unfold listRequestIds getRequest
    rw [UMap.mem_keys]
    cases h1 : s.book.requests.get id <;>
      simp [pure, Except.pure, throw, throwThe, MonadExceptOf.throw]
  · intro id cs hc
    unfold getConfirmations at hc
    cases h2 : s.book.confs.get id with
    | none => rw [h2] at hc; cases hc
    | some cs' =>
      rw [h2] at hc
      cases hc
      exact ⟨hm.book.nodup _ _ h2, fun k hk => hh.conf _ _ _ h2 hk⟩
  · intro k
    rw [← pending_eq]
    exact hm.book.cnt k

/-- **C43, limit.** When a request is added, its author has at most `active_requests_limit` pending
requests afterwards, counting the new one. -/
theorem C43_limit_respected {self : AccountId} {n : Nat} {w : World} (h : Reachable self n w)
    {ev : Ev} {k : PublicKey} {id : Nat} {q : Request} (ha : Adds self w ev k id q) :
    numPending w.c k < w.c.limit ∧ numPending (step self w ev).c k ≤ w.c.limit := by
  have hm := reachable_minv h
  obtain ⟨host, c, r, rfl, hc, hr, rfl⟩ := ha
  have hr' := exec_ok.mp hr
  have hst : (step self w (.call self k 0 host c)).c = r.c := by simp only [step, hr]
  have key : ∀ e : Env, e.signerPk = k → CanAdd e w.c q →
      w.c.book.pending k < w.c.limit ∧ (added e w.c q).book.pending k ≤ w.c.limit := by
    intro e he hca
    subst he
    have := hca.lim
    rw [← hm.book.cnt, ← (hm.add hca).book.cnt]
    simp only [added, Book.add, UMap.get_insert_self, Option.getD_some]
    omega
  rw [hst, ← pending_eq, ← pending_eq]
  cases hr' with
  | add q' h1 h2 =>
    have hq : q' = q := by rcases hc with hc | hc <;> cases hc; rfl
    subst hq
    exact key _ rfl h2
  | addConfirm q' s' b h1 h2 h3 =>
    have hq : q' = q := by rcases hc with hc | hc <;> cases hc; rfl
    subst hq
    obtain ⟨g1, g2⟩ := key _ rfl h2
    exact ⟨g1, Nat.le_trans (Book.pending_mono (conf_facts h3).1 k) g2⟩
  | delete id st cs h1 h2 h3 h4 h5 h6 => rcases hc with hc | hc <;> cases hc
  | confirm id s' b h1 h2 => rcases hc with hc | hc <;> cases hc

/-- **C43, adding.** `add_request` is accepted exactly when it comes from the account itself without
deposit, the numbers in it are in range, the key has fewer pending requests than the limit and ids are
left; there is no internal failure. -/
theorem C43_add_request_iff {self : AccountId} {n : Nat} {w : World} (h : Reachable self n w)
    (who : AccountId) (k : PublicKey) (att : Nat) (host : Bool) (q : Request) :
    (∃ r, exec (mkEnv self w who k att host) w.c (.addRequest q) = .ok r) ↔
      att = 0 ∧ who = self ∧ q.actions.all Action.inRange = true ∧
      numPending w.c k < w.c.limit ∧ getRequestNonce w.c + 1 < two32 := by
  have hm := reachable_minv h
  have hcnt := hm.book.cnt k
  have hlim := hm.lim
  rw [pending_eq] at hcnt
  constructor
  · rintro ⟨r, hr⟩
    cases exec_ok.mp hr with
    | add q h1 h2 =>
      have := h2.lim
      refine ⟨h1, h2.self.symm, h2.range, ?_, h2.nonce⟩
      have h3 : (w.c.book.counts.get k).getD 0 + 1 ≤ w.c.limit := h2.lim
      omega
  · rintro ⟨rfl, rfl, h3, h4, h5⟩
    refine ⟨_, exec_ok.mpr (.add q rfl ⟨h3, rfl, ?_, ?_, h5⟩)⟩
    · show (w.c.book.counts.get k).getD 0 + 1 < two32
      omega
    · show (w.c.book.counts.get k).getD 0 + 1 ≤ w.c.limit
      omega

/-- **C43, confirming.** `confirm` is accepted exactly when it comes from the account itself without
deposit, the request is pending, the key has not confirmed it yet and, if this is the confirmation
that executes it, the request is executable and the host takes the batch. It executes the request
exactly when the threshold is reached. -/
theorem C43_confirm_iff {self : AccountId} {n : Nat} {w : World} (h : Reachable self n w)
    (who : AccountId) (k : PublicKey) (att : Nat) (host : Bool) (id : Nat) :
    (∃ r, exec (mkEnv self w who k att host) w.c (.confirm id) = .ok r) ↔
      att = 0 ∧ who = self ∧ ∃ q cs, getRequest w.c id = .ok q ∧ getConfirmations w.c id = .ok cs ∧
        k ∉ cs ∧ (getNumConfirmations w.c ≤ cs.length + 1 → Executable self q ∧ host = true) := by
  have hm := reachable_minv h
  constructor
  · rintro ⟨r, hr⟩
    cases exec_ok.mp hr with
    | confirm id s' b h1 h2 =>
      cases h2 with
      | stored st cs g1 g2 g3 g4 g5 g6 =>
        refine ⟨h1, g1.symm, st.request, cs, by simp [getRequest, g2, pure, Except.pure],
          by simp [getConfirmations, g3, pure, Except.pure], g4, fun hle => ?_⟩
        have := hm.len id cs g3
        rw [Nat.mod_eq_of_lt (by omega)] at g6
        simp only [getNumConfirmations] at hle
        omega
      | executed st cs g1 g2 g3 g4 g5 g6 g7 g8 =>
        exact ⟨h1, g1.symm, st.request, cs, by simp [getRequest, g2, pure, Except.pure],
          by simp [getConfirmations, g3, pure, Except.pure], g4, fun _ => ⟨g7, g8⟩⟩
  · rintro ⟨rfl, rfl, q, cs, h3, h4, h5, h6⟩
    unfold getRequest at h3
    unfold getConfirmations at h4
    cases hg : w.c.book.requests.get id with
    | none => rw [hg] at h3; cases h3
    | some st =>
      cases hc : w.c.book.confs.get id with
      | none => rw [hc] at h4; cases h4
      | some cs' =>
        rw [hg] at h3; rw [hc] at h4
        cases h3; cases h4
        have hlen := hm.len id cs hc
        have hmod : cs.length % two32 = cs.length := Nat.mod_eq_of_lt (by omega)
        by_cases hn : getNumConfirmations w.c ≤ cs.length + 1
        · obtain ⟨h7, h8⟩ := h6 hn
          refine ⟨_, exec_ok.mpr (.confirm id _ _ rfl (.executed st cs rfl hg hc h5 ?_ ?_ h7 h8))⟩
          · rw [hmod]; exact hlen
          · rw [hmod]; exact hn
        · refine ⟨_, exec_ok.mpr (.confirm id _ _ rfl (.stored st cs rfl hg hc h5 ?_ ?_))⟩
          · rw [hmod]; exact hlen
          · rw [hmod]; simpa [getNumConfirmations] using hn

/-- **C43, decision.** A successful `confirm` executes the request exactly when it brings the number of
confirmations to the threshold; otherwise it only records the confirmation. -/
theorem C43_confirm_decides {self : AccountId} {n : Nat} {w : World} (h : Reachable self n w)
    (k : PublicKey) (host : Bool) (id : Nat) {r : Res} {cs : List PublicKey}
    (hcs : getConfirmations w.c id = .ok cs)
    (hr : exec (mkEnv self w self k 0 host) w.c (.confirm id) = .ok r) :
    (getNumConfirmations w.c ≤ cs.length + 1 → r.batch ≠ none ∧ id ∉ listRequestIds r.c) ∧
    (cs.length + 1 < getNumConfirmations w.c → r.batch = none ∧
      getConfirmations r.c id = .ok (cs ++ [k]) ∧ getRequest r.c id = getRequest w.c id) := by
  have hm := reachable_minv h
  cases exec_ok.mp hr with
  | confirm id s' b h1 h2 =>
    cases h2 with
    | stored st cs' g1 g2 g3 g4 g5 g6 =>
      have hcc : cs' = cs := by simpa [getConfirmations, g3, pure, Except.pure] using hcs
      subst hcc
      have := hm.len id cs' g3
      rw [Nat.mod_eq_of_lt (by omega)] at g6
      refine ⟨fun hle => absurd hle (by simp only [getNumConfirmations]; omega), fun _ => ⟨rfl, ?_, rfl⟩⟩
      simp [getConfirmations, Book.confirm, mkEnv, pure, Except.pure]
    | executed st cs' g1 g2 g3 g4 g5 g6 g7 g8 =>
      have hcc : cs' = cs := by simpa [getConfirmations, g3, pure, Except.pure] using hcs
      subst hcc
      have := hm.len id cs' g3
      rw [Nat.mod_eq_of_lt (by omega)] at g6
      refine ⟨fun _ => ⟨by simp, ?_⟩, fun hlt => absurd g6 (by simp only [getNumConfirmations] at hlt; omega)⟩
      have hb := conf_batch (ConfRel.executed (e := mkEnv self w self k 0 host) (s := w.c) st cs' g1 g2
        g3 g4 g5 (by rw [Nat.mod_eq_of_lt (by omega)]; exact g6) g7 g8)
      obtain ⟨_, _, _, _, _, _, _, _, hb, _⟩ := hb
      unfold listRequestIds
      rw [← UMap.get_eq_none]
      exact hb

/-- A reachable state with a pending request and one confirmation; the limit is 12. -/
example : Reachable "ms" 2 (run "ms" demoStart demoAdd) ∧
    numPending (run "ms" demoStart demoAdd).c "k1" = 1 ∧
    (run "ms" demoStart demoAdd).c.limit = 12 ∧
    (run "ms" demoStart demoAdd).c.book.confs.get 0 = some ["k1"] ∧
    (step "ms" (run "ms" demoStart demoAdd) (.call "ms" "k2" 0 true (.addRequest demoPay))).c.book.nonce
      = 2 :=
  ⟨⟨_, _, demo_started, rfl⟩, by decide +kernel, by decide +kernel, by decide +kernel,
    by decide +kernel⟩

/-! ## C44 -/

/-- **C44.** `delete_request` succeeds exactly when it comes from the account itself (with any key)
without deposit, and more than 900 seconds of block time have passed since the pending request was
added. It removes this request with its confirmations, takes one off its author's counter, and
changes nothing else. -/
theorem C44_delete_request_iff {self : AccountId} {n : Nat} {w : World} (h : Reachable self n w)
    (hnow : w.now < two64) (who : AccountId) (k : PublicKey) (att : Nat) (host : Bool) (id : Nat)
    (r : Res) :
    exec (mkEnv self w who k att host) w.c (.deleteRequest id) = .ok r ↔
      att = 0 ∧ who = self ∧ ∃ st, w.c.book.requests.get id = some st ∧
        st.added + 15 * 60 * 1000000000 < w.now ∧
        r = ⟨{ w.c with book := w.c.book.remove (fun k => k) id st }, id, none⟩ := by
  have hm := reachable_minv h
  constructor
  · intro hr
    cases exec_ok.mp hr with
    | delete id st cs h1 h2 h3 h4 h5 h6 => exact ⟨h1, h2.symm, st, h3, h6, rfl⟩
  · rintro ⟨rfl, rfl, st, h3, h4, rfl⟩
    have hids := hm.book.ids id
    rw [h3] at hids
    obtain ⟨cs, hcs⟩ := Option.isSome_iff_exists.mp hids.symm
    refine exec_ok.mpr (.delete id st cs rfl rfl h3 hcs ?_ h4)
    have : requestCooldown = 15 * 60 * 1000000000 := by decide
    omega

/-- **C44, effect.** What a deletion changes, in terms of the views. -/
theorem C44_delete_request_effect {self : AccountId} {n : Nat} {w : World} (h : Reachable self n w)
    {ev : Ev} {id : Nat} (hd : Deletes self w ev id) :
    let s := w.c; let s' := (step self w ev).c
    (∀ id', getRequest s' id' = if id' = id then .error "No such request" else getRequest s id') ∧
    (∀ id', getConfirmations s' id' =
      if id' = id then .error "No such request" else getConfirmations s id') ∧
    (∀ st, s.book.requests.get id = some st →
      getNumRequestsPk s' st.signer + 1 = getNumRequestsPk s st.signer ∧
      ∀ k, k ≠ st.signer → getNumRequestsPk s' k = getNumRequestsPk s k) ∧
    getNumConfirmations s' = getNumConfirmations s ∧ s'.limit = s.limit ∧
    getRequestNonce s' = getRequestNonce s ∧ (step self w ev).issued = w.issued := by
  intro s s'
  have hm := reachable_minv h
  obtain ⟨k, host, r, rfl, hr⟩ := hd
  have hst : step self w (.call self k 0 host (.deleteRequest id)) =
      { w with c := r.c, issued := logged r w.issued } := by simp only [step, hr]
  have hs' : s' = r.c := by show (step self w _).c = _; rw [hst]
  rw [hs', hst]
  cases exec_ok.mp hr with
  | delete id st cs h1 h2 h3 h4 h5 h6 =>
    refine ⟨?_, ?_, ?_, rfl, rfl, rfl, rfl⟩
    · intro id'
      simp only [getRequest, Book.remove, UMap.get_remove]
      by_cases hid : id = id'
      · subst hid; simp [throw, throwThe, MonadExceptOf.throw]
      · rw [if_neg hid, if_neg (fun h => hid h.symm)]
    · intro id'
      simp only [getConfirmations, Book.remove, UMap.get_remove]
      by_cases hid : id = id'
      · subst hid; simp [throw, throwThe, MonadExceptOf.throw]
      · rw [if_neg hid, if_neg (fun h => hid h.symm)]
    · intro st' hst'
      have : st = st' := by rw [h3] at hst'; exact Option.some.inj hst'
      subst this
      have hpos := Book.pending_pos h3
      have hcnt := hm.book.cnt st.signer
      refine ⟨?_, ?_⟩
      · simp only [getNumRequestsPk, Book.remove, UMap.get_insert_self, Option.getD_some]
        show (w.c.book.counts.get st.signer).getD 0 - 1 + 1 = (w.c.book.counts.get st.signer).getD 0
        omega
      · intro k' hk'
        simp only [getNumRequestsPk, Book.remove, UMap.get_insert]
        rw [if_neg (fun h => hk' h.symm)]

/-- **C44, in the history.** A deleted request was added more than 900 seconds of block time before. -/
theorem C44_deleted_after_cooldown {self : AccountId} {n : Nat} {w0 : World} (hs : Started n w0)
    (evs : List Ev) {ev : Ev} {id : Nat} (hd : Deletes self (run self w0 evs) ev id) :
    ∃ k q, Sometime self w0 evs (fun w e => Adds self w e k id q ∧
      w.now + 15 * 60 * 1000000000 < (run self w0 evs).now) := by
  obtain ⟨k, host, r, rfl, hr⟩ := hd
  cases exec_ok.mp hr with
  | delete id st cs h1 h2 h3 h4 h5 h6 =>
    obtain ⟨l1, e1, l2, hl, ha, ht⟩ := (hist_run hs evs).req _ _ h3
    refine ⟨st.signer, st.request, l1, e1, l2, hl, ha, ?_⟩
    rw [ht]; exact h6

/-- Not at exactly 900 seconds, but one nanosecond later. -/
example : (step "ms" (run "ms" demoStart (demoAdd ++ [.tick 900000000000]))
      (.call "ms" "k3" 0 true (.deleteRequest 0))).c.book.requests.len = 1 ∧
    (step "ms" (run "ms" demoStart (demoAdd ++ [.tick 900000000001]))
      (.call "ms" "k3" 0 true (.deleteRequest 0))).c.book.requests.len = 0 := by decide +kernel

/-! ## C50 -/

/-- What executing the request does to the configuration. -/
def ConfigEffect (s s' : State) (q : Request) : Prop :=
  (∃ m, q.actions = [.setNumConfirmations m] ∧ s'.numConfirmations = m ∧ s'.limit = s.limit) ∨
  (∃ m, q.actions = [.setActiveRequestsLimit m] ∧ s'.limit = m ∧
    s'.numConfirmations = s.numConfirmations) ∨
  ((∀ a ∈ q.actions, (∀ m, a ≠ .setNumConfirmations m) ∧ (∀ m, a ≠ .setActiveRequestsLimit m)) ∧
    s'.numConfirmations = s.numConfirmations ∧ s'.limit = s.limit)

theorem config_effect {self : AccountId} {q : Request} (he : Executable self q) (s s1 : State)
    (h1 : s1.numConfirmations = s.numConfirmations) (h2 : s1.limit = s.limit) :
    ConfigEffect s (applyActions s1 q.actions) q := by
  by_cases hn : ∀ a ∈ q.actions, a.toP ≠ none
  · obtain ⟨g1, g2⟩ := apply_config q.actions s1 hn
    refine .inr (.inr ⟨?_, g1.trans h1, g2.trans h2⟩)
    intro a ha
    refine ⟨fun m hm => hn a ha (by rw [hm]; rfl), fun m hm => hn a ha (by rw [hm]; rfl)⟩
  · push Not at hn
    obtain ⟨a, ha, hp⟩ := hn
    have hal := he a ha
    have single : q.actions.length = 1 → q.actions = [a] := by
      intro hl
      obtain ⟨x, hx⟩ := List.length_eq_one_iff.mp hl
      rw [hx] at ha ⊢
      rw [List.mem_singleton.mp ha]
    cases a with
    | setNumConfirmations m =>
      have := single hal.2
      rw [this]
      exact .inl ⟨m, this, rfl, h2⟩
    | setActiveRequestsLimit m =>
      have := single hal.2
      rw [this]
      exact .inr (.inl ⟨m, this, rfl, h1⟩)
    | addKey k p => cases p <;> cases hp
    | _ => cases hp

/-- **C50.** Every event either leaves `num_confirmations` and `active_requests_limit` unchanged, or
executes a request (added before under the logged id; with enough confirmations by C41) whose receiver
is the contract itself and whose single action sets exactly the value that changed. -/
theorem C50_configuration_changes {self : AccountId} {n : Nat} {w0 : World} (hs : Started n w0)
    (evs : List Ev) (ev : Ev)
    (hch : (step self (run self w0 evs) ev).c.numConfirmations ≠ (run self w0 evs).c.numConfirmations ∨
      (step self (run self w0 evs) ev).c.limit ≠ (run self w0 evs).c.limit) :
    ∃ id k q, Sometime self w0 (evs ++ [ev]) (fun w e => Adds self w e k id q) ∧
      (step self (run self w0 evs) ev).issued = (id, ⟨self, []⟩) :: (run self w0 evs).issued ∧
      q.receiver = self ∧
      ((∃ m, q.actions = [.setNumConfirmations m] ∧
          (step self (run self w0 evs) ev).c.numConfirmations = m ∧
          (step self (run self w0 evs) ev).c.limit = (run self w0 evs).c.limit) ∨
        (∃ m, q.actions = [.setActiveRequestsLimit m] ∧
          (step self (run self w0 evs) ev).c.limit = m ∧
          (step self (run self w0 evs) ev).c.numConfirmations =
            (run self w0 evs).c.numConfirmations)) := by
  by_cases hi : (step self (run self w0 evs) ev).issued = (run self w0 evs).issued
  · obtain ⟨h1, h2⟩ := quiet_config hi
    rcases hch with h | h
    · exact absurd h1 h
    · exact absurd h2 h
  · obtain ⟨k, host, c, r, b, he, hr, hb, hst⟩ := issue_step hi
    obtain ⟨k', q, h1, h2, h3, s1, st, h4, h5, h6, h7⟩ := issue_origin hs he hr hb
    have heff := config_effect h3 (run self w0 evs).c
      { s1 with book := s1.book.remove (fun k => k) r.id st } h5 h6
    rw [← h7] at heff
    rw [hst] at hch ⊢
    rcases heff with ⟨m, g1, g2, g3⟩ | ⟨m, g1, g2, g3⟩ | ⟨_, g2, g3⟩
    · have hal := h3 (.setNumConfirmations m) (by rw [g1]; simp)
      refine ⟨r.id, k', q, h1, ?_, hal.1, .inl ⟨m, g1, g2, g3⟩⟩
      have : b = ⟨self, []⟩ := by
        rw [h2]; unfold Request.toBatch; rw [g1, hal.1]; rfl
      rw [this]
    · have hal := h3 (.setActiveRequestsLimit m) (by rw [g1]; simp)
      refine ⟨r.id, k', q, h1, ?_, hal.1, .inr ⟨m, g1, g2, g3⟩⟩
      have : b = ⟨self, []⟩ := by
        rw [h2]; unfold Request.toBatch; rw [g1, hal.1]; rfl
      rw [this]
    · rcases hch with h | h
      · exact absurd g2 h
      · exact absurd g3 h

/-- **C50, effect.** Executing a request has exactly the effect on the configuration that its actions
ask for. -/
theorem C50_executed_request_takes_effect {self : AccountId} {n : Nat} {w0 : World}
    (hs : Started n w0) (evs : List Ev) (ev : Ev) {id : Nat} {b : Batch}
    (hi : (step self (run self w0 evs) ev).issued = (id, b) :: (run self w0 evs).issued) :
    ∃ k q, Sometime self w0 (evs ++ [ev]) (fun w e => Adds self w e k id q) ∧
      ConfigEffect (run self w0 evs).c (step self (run self w0 evs) ev).c q := by
  have hne : (step self (run self w0 evs) ev).issued ≠ (run self w0 evs).issued := by
    intro h; rw [h] at hi; exact absurd (congrArg List.length hi) (by simp)
  obtain ⟨k, host, c, r, b', he, hr, hb, hst⟩ := issue_step hne
  have hid : r.id = id := by rw [hst] at hi; simp only [List.cons.injEq, Prod.mk.injEq] at hi; tauto
  subst hid
  obtain ⟨k', q, h1, h2, h3, s1, st, h4, h5, h6, h7⟩ := issue_origin hs he hr hb
  have heff := config_effect h3 (run self w0 evs).c
    { s1 with book := s1.book.remove (fun k => k) r.id st } h5 h6
  rw [← h7] at heff
  refine ⟨k', q, h1, ?_⟩
  rw [hst]; exact heff

/-- The threshold rises from two to three when the second key confirms. -/
example : (step "ms" (run "ms" demoStart demoRaise) demoRaiseLast).c.numConfirmations = 3 ∧
    (run "ms" demoStart demoRaise).c.numConfirmations = 2 ∧
    (step "ms" (run "ms" demoStart demoRaise) demoRaiseLast).issued = [(0, ⟨"ms", []⟩)] := by
  decide +kernel

end Verif.Multisig
