import Verif.Multisig2.Threshold

/-!
# The multisig2 contract: threshold (C47, C63, C64), member keys (C49), removed members (C45)

C45, C47 and C49 are false of the code as stated; each has a refutation with a concrete history and a theorem
that says what does hold.
-/

namespace Verif.Multisig2

open Verif

/-! ## C47 -/

/-- **C47 is false at initialization.** `new` compares the threshold with the length of the list it is
given, duplicates included: two entries for the same account meet a threshold of two, but there is
one member only. -/
theorem C47_duplicates_refuted : ∃ (self : AccountId) (ms : List Member) (n : Nat) (w : World),
    Started self ms n w ∧ (getMembers w.c).length < getNumConfirmations w.c :=
  ⟨"ms", [.account "alice", .account "alice"], 2, startWith [.account "alice", .account "alice"] 2,
    ⟨_, _, 1000, "founder", "fk", rfl, rfl⟩, by decide +kernel⟩

/-- Demand seven confirmations. -/
def demoSeven : Request := ⟨"ms", [.setNumConfirmations 7]⟩

/-- **C47 is false for later states.** Also with distinct initial members: `SetNumConfirmations` is not
compared with the number of members. -/
theorem C47_set_num_confirmations_refuted :
    ∃ (self : AccountId) (ms : List Member) (n : Nat) (w : World),
    ms.Nodup ∧ Reachable self ms n w ∧ (getMembers w.c).length < getNumConfirmations w.c :=
  ⟨"ms", demoMembers, 2, run "ms" demoStart
    [.call "bob" "x" 0 true (.addRequestAndConfirm demoSeven), .call "carol" "x" 0 true (.confirm 0)],
    by decide, ⟨_, _, demo_started, rfl⟩, by decide +kernel⟩

/-- **C64, locked for ever.** If there are fewer members than the threshold and nothing
is pending, then no history from there ever executes a request; the members cannot repair the
configuration either. -/
theorem C64_locked_forever {self : AccountId} {ms : List Member} {n : Nat} {w : World}
    (h : Reachable self ms n w) (hfew : (getMembers w.c).length < getNumConfirmations w.c)
    (hnone : listRequestIds w.c = []) (evs : List Ev) :
    (run self w evs).issued = w.issued := by
  have hm := reachable_minv h
  refine locked_run ⟨by rw [len_getMembers]; exact hfew, ?_, hm⟩ evs
  intro id cs k hc hk
  exfalso
  have hids := hm.book.ids id
  rw [hc] at hids
  obtain ⟨st, hst⟩ := Option.isSome_iff_exists.mp hids
  have : id ∈ listRequestIds w.c := UMap.mem_keys.mpr ⟨st, hst⟩
  rw [hnone] at this; cases this

/-- The state above meets the hypotheses. -/
example :
    let w := run "ms" demoStart [.call "bob" "x" 0 true (.addRequestAndConfirm demoSeven),
      .call "carol" "x" 0 true (.confirm 0)]
    (getMembers w.c).length < getNumConfirmations w.c ∧ listRequestIds w.c = [] := by
  decide +kernel

/-- The event executes a request whose single action sets the threshold above the number of members. -/
def Overshoots (self : AccountId) (w0 : World) (l1 : List Ev) (ev : Ev) : Prop :=
  ∃ id b m q n, (step self (run self w0 l1) ev).issued = (id, b) :: (run self w0 l1).issued ∧
    Sometime self w0 (l1 ++ [ev]) (fun w e => Adds self w e m id q) ∧
    q.actions = [.setNumConfirmations n] ∧ (getMembers (run self w0 l1).c).length < n

/-- **C47, what holds.** With distinct initial members, as long as no executed `SetNumConfirmations`
demands more confirmations than there are members at that moment, the threshold is at most the number
of members; in particular deleting members keeps it so. Missing from C47: `new` with duplicates and
`SetNumConfirmations` beyond the number of members. -/
theorem C47_threshold_reachable_partial {self : AccountId} {ms : List Member} {n : Nat} {w0 : World}
    (hs : Started self ms n w0) (hd : ms.Nodup) (evs : List Ev)
    (hset : ∀ l1 ev l2, evs = l1 ++ ev :: l2 → ¬ Overshoots self w0 l1 ev) :
    getNumConfirmations (run self w0 evs).c ≤ (getMembers (run self w0 evs).c).length := by
  rw [← len_getMembers]
  induction evs using List.reverseRecOn with
  | nil =>
    obtain ⟨_, h1, h2, _⟩ := started_c hs
    simp only [run]; rw [h2]
    exact Nat.le_trans h1 (insertAll_length ms hd)
  | append_singleton l ev ih =>
    have ih := ih (fun l1 e l2 h => hset l1 e (l2 ++ [ev]) (by rw [h]; simp))
    have hno := hset l ev [] rfl
    rw [run_snoc]
    by_cases hi : (step self (run self w0 l) ev).issued = (run self w0 l).issued
    · obtain ⟨h1, _, h3⟩ := quiet_config hi
      unfold getNumConfirmations at ih ⊢
      rw [h1, h3]; exact ih
    · obtain ⟨who, k, host, c, r, b, he, hr, hb, hst⟩ := issue_step hi
      obtain ⟨k', q, h1, h2, s1, st, h4, h5, h6, h7, h8, h9⟩ := issue_origin hs he hr hb
      have hc : (step self (run self w0 l) ev).c = applyActions
          { s1 with book := s1.book.remove Member.str r.id st } q.actions := by rw [hst]; exact h9
      rw [hc]
      by_cases hq : ∀ a ∈ q.actions, ∀ n, a ≠ .setNumConfirmations n
      · refine apply_threshold q.actions _ h8 hq ?_
        show s1.numConfirmations ≤ s1.members.len
        rw [h5, h7]; exact ih
      · push Not at hq
        obtain ⟨a, ha, m, rfl⟩ := hq
        have hal := (allowedAll_mem _ h8 ha).1 rfl
        have hqa : q.actions = [.setNumConfirmations m] := by
          obtain ⟨x, hx⟩ := List.length_eq_one_iff.mp hal.2
          rw [hx] at ha ⊢
          rw [List.mem_singleton.mp ha]
        rw [hqa]
        show m ≤ s1.members.len
        rw [h7, len_getMembers]
        by_contra hlt
        exact hno ⟨r.id, b, k', q, m, by rw [hst], h1, hqa, by omega⟩

/-- Raising the threshold to three, the number of members, does not overshoot; deleting a member is then
refused. -/
example :
    let evs : List Ev := [.call "bob" "x" 0 true (.addRequestAndConfirm demoThree),
      .call "carol" "x" 0 true (.confirm 0), .call "bob" "x" 0 true (.addRequestAndConfirm demoDrop),
      .call "carol" "x" 0 true (.confirm 1), .call "ms" "k1" 0 true (.confirm 1)]
    demoMembers.Nodup ∧ getNumConfirmations (run "ms" demoStart evs).c = 3 ∧
    (getMembers (run "ms" demoStart evs).c).length = 3 ∧
    (run "ms" demoStart evs).issued.length = 1 := by decide +kernel

/-- **C63, members together execute a pending request.** If the threshold is at most the number of
members, the account itself is not listed as an account member (such a member can never act), some
member has not yet confirmed the pending, executable request and the host takes its batch, then the
request executes once all members who have not confirmed it do so, in any order. -/
theorem C63_members_execute_pending {self : AccountId} {ms : List Member} {n : Nat} {w : World}
    (h : Reachable self ms n w)
    (hnum : getNumConfirmations w.c ≤ (getMembers w.c).length)
    (hself : Member.account self ∉ getMembers w.c) {id : Nat} {q : Request} {cs : List String}
    (hq : getRequest w.c id = .ok q) (hcs : getConfirmations w.c id = .ok cs)
    (hex : Executable self w.c q) (ml : List Member) (hnd : ml.Nodup) (hne : ml ≠ [])
    (hml : ∀ m, m ∈ ml ↔ m ∈ getMembers w.c ∧ m.str ∉ cs) :
    (id, q.toBatch self) ∈ (run self w (ml.map (confirmBy self id))).issued := by
  have hm := reachable_minv h
  unfold getRequest at hq
  unfold getConfirmations at hcs
  cases hg : w.c.book.requests.get id with
  | none => rw [hg] at hq; cases hq
  | some st =>
    cases hc : w.c.book.confs.get id with
    | none => rw [hc] at hcs; cases hcs
    | some cs' =>
      rw [hg] at hq; rw [hc] at hcs
      cases hq; cases hcs
      refine confirm_all ml w cs hm hg hc hnd ?_ hex hne ?_
      · intro m hmem
        obtain ⟨g1, g2⟩ := (hml m).mp hmem
        exact ⟨g1, fun he => hself (he ▸ g1), g2⟩
      · -- every member has confirmed or is in the list
        have hsub : ((getMembers w.c).map Member.str) ⊆ cs ++ ml.map Member.str := by
          intro k hk
          obtain ⟨m, g1, rfl⟩ := List.mem_map.mp hk
          by_cases hmc : m.str ∈ cs
          · exact List.mem_append_left _ hmc
          · exact List.mem_append_right _ (List.mem_map_of_mem ((hml m).mpr ⟨g1, hmc⟩))
        have := (List.subperm_of_subset ((nodup_getMembers w.c).map str_inj) hsub).length_le
        simp only [List.length_map, List.length_append] at this
        unfold getNumConfirmations at hnum
        omega

/-- The payment of the demonstration: `bob` and `carol` have not confirmed it. -/
example :
    let w := run "ms" demoStart demoAdd
    getNumConfirmations w.c ≤ (getMembers w.c).length ∧ Member.account "ms" ∉ getMembers w.c ∧
    getRequest w.c 0 = .ok demoPay ∧ getConfirmations w.c 0 = .ok [(Member.key "k1").str] ∧
    (∀ m ∈ [Member.account "carol", .account "bob"], m ∈ getMembers w.c ∧
      m.str ∉ [(Member.key "k1").str]) ∧
    (run "ms" w ([Member.account "carol", .account "bob"].map (confirmBy "ms" 0))).issued =
      [(0, ⟨"dave", [.transfer 5]⟩)] := by
  refine ⟨by decide +kernel, by decide +kernel, by rfl, by rfl, by decide +kernel, by decide +kernel⟩

/-- **C63, members together execute a new request.** Under the same conditions on threshold and members,
a member with room for another request can propose any executable request, and it executes once all
members confirm it, in any order. -/
theorem C63_members_execute_new {self : AccountId} {ms : List Member} {n : Nat} {w : World}
    (h : Reachable self ms n w)
    (hnum : getNumConfirmations w.c ≤ (getMembers w.c).length)
    (hself : Member.account self ∉ getMembers w.c) {who : AccountId} {pk : PublicKey} (q : Request)
    (hwho : actor self who pk ∈ getMembers w.c) (hr : q.actions.all Action.inRange = true)
    (hroom : numPending w.c (actor self who pk) < w.c.limit)
    (hids : getRequestNonce w.c + 1 < two32) (hex : Executable self w.c q) (ml : List Member)
    (hnd : ml.Nodup) (hml : ∀ m, m ∈ ml ↔ m ∈ getMembers w.c) :
    (getRequestNonce w.c, q.toBatch self) ∈ (run self w (.call who pk 0 true (.addRequest q) ::
      ml.map (confirmBy self (getRequestNonce w.c)))).issued := by
  obtain ⟨r, hx⟩ := (C48_add_request_iff h who pk 0 true q).mpr ⟨rfl, hwho, hr, hroom, hids⟩
  have hst : step self w (.call who pk 0 true (.addRequest q)) =
      { w with c := r.c, issued := logged r w.issued } := by simp only [step, hx]
  have hr' : Reachable self ms n (step self w (.call who pk 0 true (.addRequest q))) := by
    obtain ⟨w0, evs, h1, rfl⟩ := h
    exact ⟨w0, evs ++ [_], h1, (run_snoc _ _ _ _).symm⟩
  simp only [run]
  rw [hst] at hr' ⊢
  cases exec_ok.mp hx with
  | add m q h1 h2 =>
    refine C63_members_execute_pending hr' hnum hself (q := q) (cs := []) ?_ ?_ ?_ ml hnd ?_ ?_
    · simp [getRequest, getRequestNonce, added, Book.add, pure, Except.pure]
    · simp [getConfirmations, getRequestNonce, added, Book.add, pure, Except.pure]
    · exact (executable_congr (s := w.c) (s' := added (mkEnv self w who pk 0 true) w.c m q)
        rfl rfl).mp hex
    · rintro rfl
      have := (hml _).mpr hwho
      cases this
    · intro x
      simp only [hml, List.not_mem_nil, not_false_eq_true, and_true]
      rfl

/-- The demonstration start meets the hypotheses, for `bob` and a payment. -/
example : getNumConfirmations demoStart.c ≤ (getMembers demoStart.c).length ∧
    Member.account "ms" ∉ getMembers demoStart.c ∧
    actor "ms" "bob" "x" ∈ getMembers demoStart.c ∧ demoPay.actions.all Action.inRange = true ∧
    numPending demoStart.c (actor "ms" "bob" "x") < demoStart.c.limit ∧
    getRequestNonce demoStart.c + 1 < two32 ∧ Executable "ms" demoStart.c demoPay ∧
    (∀ m, m ∈ demoMembers ↔ m ∈ getMembers demoStart.c) := by
  refine ⟨by decide +kernel, by decide +kernel, by decide +kernel, by decide +kernel,
    by decide +kernel, by decide +kernel, ⟨trivial, trivial⟩, ?_⟩
  intro m
  have : getMembers demoStart.c = demoMembers := by decide +kernel
  rw [this]

/-- Three accounts, all of which must confirm. -/
def demoAllStart : World := startWith [.account "a", .account "b", .account "c"] 3

/-- `a` and `b` confirm a payment; then all lower the threshold to two, and `a` and `b` remove `c`. -/
def demoStuck : List Ev :=
  [.call "a" "" 0 true (.addRequestAndConfirm demoPay), .call "b" "" 0 true (.confirm 0),
   .call "a" "" 0 true (.addRequestAndConfirm ⟨"ms", [.setNumConfirmations 2]⟩),
   .call "b" "" 0 true (.confirm 1), .call "c" "" 0 true (.confirm 1),
   .call "a" "" 0 true (.addRequestAndConfirm ⟨"ms", [.deleteMember (.account "c")]⟩),
   .call "b" "" 0 true (.confirm 2)]

/-- **C47, a stuck request.** The condition that some member has not confirmed yet is needed: a request
may have enough confirmations for the present threshold, and be confirmed by all present members, and
still be pending; then nobody can execute it (it can only be deleted and proposed anew). -/
theorem C47_stuck_request_refuted :
    ∃ (self : AccountId) (ms : List Member) (n : Nat) (w : World) (id : Nat) (q : Request)
      (cs : List String), ms.Nodup ∧ Reachable self ms n w ∧ getRequest w.c id = .ok q ∧
      getConfirmations w.c id = .ok cs ∧ getNumConfirmations w.c ≤ cs.length ∧
      getNumConfirmations w.c ≤ (getMembers w.c).length ∧ Executable self w.c q ∧
      ∀ who pk att host r, exec (mkEnv self w who pk att host) w.c (.confirm id) ≠ .ok r := by
  have hreach : Reachable "ms" [.account "a", .account "b", .account "c"] 3
      (run "ms" demoAllStart demoStuck) :=
    ⟨_, _, ⟨_, _, 1000, "founder", "fk", rfl, rfl⟩, rfl⟩
  refine ⟨"ms", [.account "a", .account "b", .account "c"], 3, run "ms" demoAllStart demoStuck, 0,
    demoPay, [(Member.account "a").str, (Member.account "b").str], by decide, hreach, by rfl, by rfl,
    by decide +kernel, by decide +kernel, ⟨trivial, trivial⟩, ?_⟩
  intro who pk att host r hr
  obtain ⟨_, h2, q, cs, _, h4, h5, _⟩ := (C48_confirm_iff hreach who pk att host 0).mp ⟨r, hr⟩
  have hcs : cs = [(Member.account "a").str, (Member.account "b").str] := by
    have : getConfirmations (run "ms" demoAllStart demoStuck).c 0 =
      .ok [(Member.account "a").str, (Member.account "b").str] := by rfl
    rw [this] at h4; cases h4; rfl
  have hmem : getMembers (run "ms" demoAllStart demoStuck).c = [.account "a", .account "b"] := by
    decide +kernel
  rw [hmem] at h2
  subst hcs
  simp only [List.mem_cons, List.not_mem_nil, or_false] at h2
  rcases h2 with h2 | h2 <;> rw [h2] at h5 <;> simp at h5

/-! ## C49 -/

/-- The permission that a batch grants to a key. -/
def PAction.grants : PAction → Option (PublicKey × Perm)
  | .addAccessKey k _ r ms => some (k, .fn r ms)
  | .addFullAccessKey k => some (k, .full)
  | _ => none

/-- **C49 is false.** The key that `new` adds for a key member does not permit
`add_request_and_confirm`: the method list names `add_and_confirm_request` instead. -/
theorem C49_refuted (self : AccountId) (q : Request) (k : PublicKey) :
    ∃ p, (∀ a ∈ memberKeyAction self (.key k), a.grants = some (k, p)) ∧
      memberKeyAction self (.key k) ≠ [] ∧
      p.permits self (Call.addRequestAndConfirm q).method = false := by
  refine ⟨.fn self multisigMethodNames, ?_, by simp [memberKeyAction], ?_⟩
  · intro a ha
    rw [memberKeyAction, List.mem_singleton] at ha
    subst ha; rfl
  · have : (multisigMethodNames = "" ||
        (splitCommas multisigMethodNames.toList).contains "add_request_and_confirm".toList) = false := by
      decide +kernel
    simp only [Perm.permits, Call.method, decide_true, Bool.true_and]
    exact this

/-- **C49, what holds.** Initialization and every executed `AddMember` grant the key of a key member a
permission for the contract itself that allows `add_request`, `delete_request` and `confirm` (and no
deposit, and no other contract). Missing from C49: `add_request_and_confirm`. -/
theorem C49_member_keys_partial {self : AccountId} :
    (∀ (e : Env) (ex : Bool) (ms : List Member) (n : Nat) (s : State) (b : Batch) (k : PublicKey),
      e.self = self → new e ex ms n = .ok (s, b) → .key k ∈ ms → b.receiver = self ∧
      ∃ a ∈ b.actions, ∃ p, a.grants = some (k, p) ∧
        ∀ c, (∀ q, c ≠ Call.addRequestAndConfirm q) → p.permits self c.method = true) ∧
    (∀ (q : Request) (k : PublicKey), .addMember (.key k) ∈ q.actions →
      ∃ a ∈ (q.toBatch self).actions, ∃ p, a.grants = some (k, p) ∧
        ∀ c, (∀ q, c ≠ Call.addRequestAndConfirm q) → p.permits self c.method = true) := by
  have perm : ∀ c, (∀ q, c ≠ Call.addRequestAndConfirm q) →
      (Perm.fn self multisigMethodNames).permits self c.method = true := by
    intro c hc
    have key : ∀ m : String, ((splitCommas multisigMethodNames.toList).contains m.toList) = true →
        (Perm.fn self multisigMethodNames).permits self m = true := by
      intro m hm
      simp only [Perm.permits, decide_true, Bool.true_and]
      rw [hm]; simp
    cases c with
    | addRequest q => exact key "add_request" (by decide +kernel)
    | addRequestAndConfirm q => exact absurd rfl (hc q)
    | deleteRequest id => exact key "delete_request" (by decide +kernel)
    | confirm id => exact key "confirm" (by decide +kernel)
  constructor
  · intro e ex ms n s b k hself hn hk
    obtain ⟨_, _, _, _, _, hx⟩ := new_ok.mp hn
    cases hx
    refine ⟨hself, .addAccessKey k 0 e.self multisigMethodNames, ?_, .fn e.self multisigMethodNames, rfl,
      ?_⟩
    · exact List.mem_flatMap.mpr ⟨.key k, hk, List.mem_singleton.mpr rfl⟩
    · rw [hself]; exact perm
  · intro q k hk
    exact ⟨.addAccessKey k 0 self multisigMethodNames,
      List.mem_filterMap.mpr ⟨_, hk, rfl⟩, .fn self multisigMethodNames, rfl, perm⟩

/-- A key member at initialization, and one that joins later. -/
example : (∃ s b, new ⟨"ms", "founder", "fk", 0, 1000, true⟩ false demoMembers 2 = .ok (s, b)) ∧
    Member.key "k1" ∈ demoMembers ∧ Action.addMember (.key "k2") ∈ demoLet.actions :=
  ⟨⟨_, _, rfl⟩, by decide, by decide⟩

/-! ## C45 -/

/-- The key member confirms a payment; then the others remove the key member. -/
def demoRemoval : List Ev :=
  [.call "bob" "x" 0 true (.addRequest demoPay), .call "ms" "k1" 0 true (.confirm 0),
   .call "bob" "x" 0 true (.addRequestAndConfirm demoDrop), .call "carol" "x" 0 true (.confirm 1)]

/-- Successful confirmations of a history. -/
def confirmations (self : AccountId) (w : World) : List Ev → List (Member × Nat)
  | [] => []
  | ev :: t =>
    (match ev with
    | .call who pk att host c =>
      match exec (mkEnv self w who pk att host) w.c c, c with
      | .ok r, .confirm _ => [(actor self who pk, r.id)]
      | .ok r, .addRequestAndConfirm _ => [(actor self who pk, r.id)]
      | _, _ => []
    | .tick _ => []) ++ confirmations self (step self w ev) t

theorem confirmations_of {self : AccountId} {w : World} {evs : List Ev} {m : Member} {id : Nat}
    (h : Sometime self w evs (fun w e => Confirms self w e m id)) :
    (m, id) ∈ confirmations self w evs := by
  obtain ⟨l1, ev, l2, rfl, hc⟩ := h
  induction l1 generalizing w with
  | nil =>
    simp only [run] at hc
    obtain ⟨who, pk, host, r, rfl, ⟨rfl, h⟩ | ⟨q, rfl, h, rfl⟩⟩ := hc
    · have hid : r.id = id := by
        cases exec_ok.mp h with
        | confirm id s' b _ _ => rfl
      simp only [List.nil_append, confirmations, h, hid]
      exact List.mem_append_left _ (List.mem_singleton.mpr rfl)
    · simp only [List.nil_append, confirmations, h]
      exact List.mem_append_left _ (List.mem_singleton.mpr rfl)
  | cons e t ih =>
    simp only [List.cons_append, confirmations]
    exact List.mem_append_right _ (ih hc)

/-- **C45 is false of multisig2 as well.** There is a history in which a request executes although the
members at that moment who have confirmed it are fewer than `num_confirmations`: a confirmation by a
removed member is counted. -/
theorem C45_refuted :
    ∃ (self : AccountId) (ms : List Member) (n : Nat) (w0 : World) (evs : List Ev) (ev : Ev) (id : Nat)
      (b : Batch), Started self ms n w0 ∧ ms.Nodup ∧
      (step self (run self w0 evs) ev).issued = (id, b) :: (run self w0 evs).issued ∧
      ∀ ml : List Member, ml.Nodup →
        (∀ m ∈ ml, m ∈ getMembers (run self w0 evs).c ∧
          Sometime self w0 (evs ++ [ev]) (fun w e => Confirms self w e m id)) →
        ml.length < getNumConfirmations (run self w0 evs).c := by
  refine ⟨"ms", demoMembers, 2, demoStart, demoRemoval, .call "bob" "x" 0 true (.confirm 0), 0,
    ⟨"dave", [.transfer 5]⟩, demo_started, by decide, by decide +kernel, ?_⟩
  intro ml hnd hk
  have hall : ∀ m ∈ ml, m = .account "bob" := by
    intro m hmem
    obtain ⟨hm, hc⟩ := hk m hmem
    have h1 := confirmations_of hc
    have h2 : confirmations "ms" demoStart (demoRemoval ++ [.call "bob" "x" 0 true (.confirm 0)]) =
        [(.key "k1", 0), (.account "bob", 1), (.account "carol", 1), (.account "bob", 0)] := by
      decide +kernel
    rw [h2] at h1
    have h3 : getMembers (run "ms" demoStart demoRemoval).c = [.account "carol", .account "bob"] := by
      decide +kernel
    rw [h3] at hm
    simp only [List.mem_cons, Prod.mk.injEq, List.not_mem_nil, or_false] at h1 hm
    rcases h1 with ⟨rfl, _⟩ | ⟨_, h⟩ | ⟨_, h⟩ | ⟨rfl, _⟩
    · rcases hm with hm | hm <;> cases hm
    · cases h
    · cases h
    · rfl
  have hn : getNumConfirmations (run "ms" demoStart demoRemoval).c = 2 := by decide +kernel
  rw [hn]
  match ml, hnd, hall with
  | [], _, _ => decide
  | [_], _, _ => simp
  | a :: b :: t, hnd, hall =>
    exfalso
    have ha := hall a (by simp)
    have hb := hall b (by simp)
    subst ha hb
    simp at hnd

/-- **C45, purge.** When a request that deletes a member executes, no request made by that member stays
pending and its counter is zero. (If it is not re-added by the same request, it is no member either,
and by C46 none of its calls has an effect.) -/
theorem C45_deleted_member_loses_its_requests {self : AccountId} {ms : List Member} {n : Nat}
    {w0 : World} (hs : Started self ms n w0) (evs : List Ev) (ev : Ev) {id : Nat} {b : Batch}
    (hi : (step self (run self w0 evs) ev).issued = (id, b) :: (run self w0 evs).issued) :
    ∃ m0 q, Sometime self w0 (evs ++ [ev]) (fun w e => Adds self w e m0 id q) ∧
      ∀ m, .deleteMember m ∈ q.actions →
        numPending (step self (run self w0 evs) ev).c m = 0 ∧
        getNumRequestsPerMember (step self (run self w0 evs) ev).c m = 0 ∧
        (.addMember m ∉ q.actions → m ∉ getMembers (step self (run self w0 evs) ev).c) := by
  have hne : (step self (run self w0 evs) ev).issued ≠ (run self w0 evs).issued := by
    intro h; rw [h] at hi; exact absurd (congrArg List.length hi) (by simp)
  obtain ⟨who, k1, host, c, r, b', he, hr, hb, hst⟩ := issue_step hne
  have hid : r.id = id ∧ b' = b := by
    rw [hst] at hi; simp only [List.cons.injEq, Prod.mk.injEq] at hi; tauto
  obtain ⟨rfl, rfl⟩ := hid
  obtain ⟨k', q, h1, h2, s1, st, h4, h5, h6, h7, h8, h9⟩ := issue_origin hs he hr hb
  refine ⟨k', q, h1, ?_⟩
  intro m hd
  have hm : MInv (step self (run self w0 evs) ev).c :=
    minv_step ev (minv_run (self := self) evs (started_minv hs))
  have hz : numPending (step self (run self w0 evs) ev).c m = 0 := by
    rw [← pending_eq]
    apply Book.pending_zero
    rw [hst]
    show ∀ id st, r.c.book.requests.get id = some st → st.signer ≠ m
    rw [h9]
    exact apply_purged _ _ hd
  refine ⟨hz, ?_, ?_⟩
  · have := hm.book.cnt m
    rw [pending_eq, hz] at this
    exact this
  · intro hadd
    rw [hst]
    show m ∉ getMembers r.c
    rw [h9]
    clear h8 h9 h2
    generalize ({ s1 with book := s1.book.remove Member.str r.id st } : State) = s at *
    have gone : ∀ (l : List Action) (s : State), .addMember m ∉ l → m ∉ getMembers s →
        m ∉ getMembers (applyActions s l) := by
      intro l
      induction l with
      | nil => exact fun _ _ h => h
      | cons a t ih =>
        intro s ha hs
        refine ih (applyAction s a) (fun h => ha (List.mem_cons_of_mem _ h)) ?_
        cases a with
        | addMember m' =>
          have hne : m ≠ m' := by rintro rfl; exact ha List.mem_cons_self
          simp only [getMembers, applyAction, UMap.mem_keys_insert]
          rintro (h | h)
          · exact hne h
          · exact hs h
        | deleteMember m' =>
          simp only [getMembers, applyAction, UMap.mem_keys_remove]
          rintro ⟨_, h⟩; exact hs h
        | _ => exact hs
    generalize hl : q.actions = l at *
    clear hl
    induction l generalizing s with
    | nil => cases hd
    | cons a t ih =>
      by_cases ha : a = .deleteMember m
      · subst ha
        refine gone t _ (fun h => hadd (List.mem_cons_of_mem _ h)) ?_
        simp only [getMembers, applyAction, UMap.mem_keys_remove]
        rintro ⟨h, _⟩; exact h rfl
      · have hd' : .deleteMember m ∈ t := by
          rcases List.mem_cons.mp hd with h | h
          · exact absurd h.symm ha
          · exact h
        exact ih (applyAction s a) hd' (fun h => hadd (List.mem_cons_of_mem _ h))

/-- The key member proposes a payment and is removed. -/
example :
    let evs : List Ev := [.call "ms" "k1" 0 true (.addRequest demoPay),
      .call "bob" "x" 0 true (.addRequestAndConfirm demoDrop)]
    (step "ms" (run "ms" demoStart evs) (.call "carol" "x" 0 true (.confirm 1))).issued =
      (1, ⟨"ms", [.deleteKey "k1", .transfer 1]⟩) :: (run "ms" demoStart evs).issued ∧
    numPending (run "ms" demoStart evs).c (.key "k1") = 1 := by decide +kernel

end Verif.Multisig2
