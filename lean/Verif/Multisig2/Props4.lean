import Mathlib.Data.List.Dedup
import Verif.Multisig2.KeySync

/-!
# Multisig2: the access keys of the account (C97 to C99)
-/

namespace Verif.Multisig2

open Verif

/-! ## An account with keys -/

/-- Let the key `k2` in. -/
def demoK2 : Request := ⟨"ms", [.addMember (.key "k2")]⟩
/-- Add `k1`, which is a member already, and `k3`. -/
def demoTwice : Request := ⟨"ms", [.addMember (.key "k3"), .addMember (.key "k1")]⟩

/-- Arguments are one byte that picks a call. -/
def demoDecode : String → Bytes → Option Call
  | "add_request", [0] => some (.addRequest demoPay)
  | "add_request", [1] => some (.addRequest demoK2)
  | "add_request", [2] => some (.addRequest demoTwice)
  | "confirm", [b] => some (.confirm b.toNat)
  | _, _ => none

def demoKCfg : KCfg := ⟨"ms", demoDecode⟩

/-- An account without keys right after `new` with the members `ms` and threshold `n`. -/
def kstartWith (ms : List Member) (n : Nat) : KWorld :=
  match new ⟨"ms", "founder", "fk", 0, 1000, true⟩ false ms n with
  | .ok (c, b) => ⟨⟨c, 1000, []⟩, .empty, [("fk", b)], []⟩
  | .error _ => ⟨demoStart, .empty, [], []⟩

/-- Two of three: a key and two accounts. -/
def demoK : KWorld := kstartWith demoMembers 2

theorem demoK_started : KStarted demoKCfg demoMembers 2 .empty demoK :=
  ⟨_, _, 1000, "founder", "fk", rfl, rfl⟩

/-- A transaction that calls one method. -/
def demoTx (k : PublicKey) (m : String) (b : UInt8) : KEv :=
  .sign k [.functionCall m [b] 0 0] [true]

/-- The founding batch arrives; `k1` proposes the key `k2`, `k1` and `bob` confirm, the batch arrives. -/
def demoJoin : List KEv :=
  [.deliver 0 [], demoTx "k1" "add_request" 1, demoTx "k1" "confirm" 0,
   .foreign "bob" "bobkey" 0 true (.confirm 0), .deliver 0 []]

/-! ## C97 -/

theorem issued_prefix {cfg : KCfg} {kw : KWorld} {l1 l2 : List KEv} {x : Nat × Batch}
    (h : x ∈ (krun cfg kw l1).w.issued) : x ∈ (krun cfg kw (l1 ++ l2)).w.issued := by
  induction l2 using List.reverseRecOn with
  | nil => rwa [List.append_nil]
  | append_singleton l ev ih =>
    rw [← List.append_assoc, krun_snoc]
    exact issued_step _ _ ih


/-- **C97.** Every access key of the account was there before the initialization, belongs to a founding
member (with the permission of members), was added in a transaction signed with a full access key, or
was asked for, with exactly this permission, by a request to the account itself that was executed: added
by a member and confirmed, since then, by at least `num_confirmations` distinct members. -/
theorem C97_keys_stem_from_requests {cfg : KCfg} {ms : List Member} {n : Nat}
    {keys0 : UMap PublicKey Perm} {kw0 : KWorld} (hs : KStarted cfg ms n keys0 kw0) (evs : List KEv)
    {k : PublicKey} {p : Perm} (hk : (krun cfg kw0 evs).keys.get k = some p) :
    keys0.get k = some p ∨
    (.key k ∈ ms ∧
      p = .fn cfg.self "add_request,delete_request,confirm,add_and_confirm_request") ∨
    (∃ l1 k' acts hosts l2 a, evs = l1 ++ .sign k' acts hosts :: l2 ∧
      (krun cfg kw0 l1).keys.get k' = some .full ∧ a ∈ acts ∧ a.grants = some (k, p)) ∨
    ∃ l1 ev l2 a1 e1 a2 id m q, (krun cfg kw0 evs).log = l1 ++ ev :: l2 ∧ l1 ++ [ev] = a1 ++ e1 :: a2 ∧
      Adds cfg.self (run cfg.self kw0.w a1) e1 m id q ∧
      m ∈ getMembers (run cfg.self kw0.w a1).c ∧ q.receiver = cfg.self ∧
      ((.addMember (.key k) ∈ q.actions ∧
          p = .fn cfg.self "add_request,delete_request,confirm,add_and_confirm_request") ∨
        (.addKey k none ∈ q.actions ∧ p = .full) ∨
        ∃ f, .addKey k (some f) ∈ q.actions ∧ p = .fn f.receiver (String.intercalate "," f.methods)) ∧
      ∃ conf : List Member, conf.Nodup ∧
        getNumConfirmations (run cfg.self kw0.w l1).c ≤ conf.length ∧
        ∀ m ∈ conf, Sometime cfg.self (run cfg.self kw0.w a1) (e1 :: a2)
          (fun w e => Confirms cfg.self w e m id ∧ m ∈ getMembers w.c) := by
  rcases (source_run hs evs).2 k p hk with h | ⟨h1, h2⟩ | ⟨id, b, a, h1, h2, h3, h4⟩ |
    ⟨l1, k', acts, hosts, l2, a, h1, h2, h3, h4⟩
  · exact .inl h
  · exact .inr (.inl ⟨h1, h2⟩)
  · right; right; right
    rw [log_run hs evs] at h1
    obtain ⟨l1, ev, l2, g1, g2⟩ := issued_at hs.started _ h1
    obtain ⟨a1, e1, a2, m0, q0, g3, g4, g5, g6⟩ := C46_enough_distinct_members hs.started l1 ev g2
    obtain ⟨m1, q1, ⟨b1, f1, b2, g7, g8⟩, g9, g10⟩ := C42_executed_as_requested hs.started (l1 ++ [ev])
      (id := id) (b := b) (by rw [run_snoc, g2]; exact List.mem_cons_self)
    obtain ⟨rfl, rfl, rfl⟩ := adds_unique (g3.symm.trans g7) g4 g8
    obtain ⟨rfl, rfl⟩ := adds_same g4 g8
    refine ⟨l1, ev, l2, a1, e1, a2, id, m0, q0, g1, g3, g4, g5, g9.symm.trans h2, ?_, g6⟩
    rw [g10] at h3
    obtain ⟨x, hx, hxa⟩ := List.mem_filterMap.mp h3
    cases x with
    | addMember m =>
      cases m with
      | key k1 => cases hxa; cases h4; exact .inl ⟨hx, rfl⟩
      | account a => cases hxa
    | addKey k1 f =>
      cases f with
      | none => cases hxa; cases h4; exact .inr (.inl ⟨hx, rfl⟩)
      | some f => cases hxa; cases h4; exact .inr (.inr ⟨f, hx, rfl⟩)
    | deleteMember m => cases m <;> cases hxa; cases h4
    | transfer x => cases hxa; cases h4
    | createAccount => cases hxa; cases h4
    | deployContract c => cases hxa; cases h4
    | functionCall m a d g => cases hxa; cases h4
    | setNumConfirmations n => cases hxa
    | setActiveRequestsLimit n => cases hxa
  · exact .inr (.inr (.inl ⟨l1, k', acts, hosts, l2, a, h1, h2, h3, h4⟩))

/-- `k2` becomes a key of the account by a request. -/
example : KStarted demoKCfg demoMembers 2 .empty demoK ∧
    (krun demoKCfg demoK demoJoin).keys.get "k2" =
      some (.fn "ms" "add_request,delete_request,confirm,add_and_confirm_request") ∧
    (krun demoKCfg demoK (demoJoin.take 4)).keys.get "k2" = none :=
  ⟨demoK_started, by decide +kernel, by decide +kernel⟩

/-- **C97, full access.** If the account has no full access key in the beginning and no executed request
asks for one, then it never has one. -/
theorem C97_no_full_access {cfg : KCfg} {ms : List Member} {n : Nat}
    {keys0 : UMap PublicKey Perm} {kw0 : KWorld} (hs : KStarted cfg ms n keys0 kw0) (evs : List KEv)
    (h0 : ∀ k, keys0.get k ≠ some .full)
    (hi : ∀ id b k, (id, b) ∈ (krun cfg kw0 evs).w.issued → .addFullAccessKey k ∉ b.actions)
    (k : PublicKey) : (krun cfg kw0 evs).keys.get k ≠ some .full := by
  induction hl : evs.length using Nat.strong_induction_on generalizing evs k with
  | _ len ih =>
    intro hk
    rcases (source_run hs evs).2 k .full hk with h | ⟨_, h2⟩ | ⟨id, b, a, h1, h2, h3, h4⟩ |
      ⟨l1, k', acts, hosts, l2, a, h1, h2, h3, h4⟩
    · exact h0 k h
    · cases h2
    · have : a = .addFullAccessKey k := by
        cases a <;> simp only [PAction.grants, reduceCtorEq, Option.some.injEq, Prod.mk.injEq, and_false,
          and_true] at h4
        rw [h4]
      subst this
      exact hi id b k h1 h3
    · refine ih l1.length (by rw [← hl, h1]; simp) l1 (fun id b k h => hi id b k ?_) k' rfl h2
      rw [h1]
      exact issued_prefix h

/-- The account never has a full access key in the history above. -/
example : (∀ k, (UMap.empty : UMap PublicKey Perm).get k ≠ some .full) ∧
    (krun demoKCfg demoK demoJoin).w.issued.map (fun x => x.2.actions) =
      [[.addAccessKey "k2" 0 "ms" "add_request,delete_request,confirm,add_and_confirm_request"]] :=
  ⟨fun _ h => (by cases h), by decide +kernel⟩

/-! ## C98 -/

/-- **C98.** An account without other keys is initialized with distinct member keys. As long as every
executed request that concerns `k` consists of one action that adds `k` when it is not a member or deletes
it when it is one, and nobody changes the key `k` with a transaction signed by a full access key, the
following holds whenever no batch concerning `k` is under way: if `k` is a member, it is an access key
that may call `add_request`, `delete_request` and `confirm` on the account and nothing more (but see C49
for `add_request_and_confirm`); if it is not a member, it is no access key of the account. -/
theorem C98_keys_in_step {cfg : KCfg} {ms : List Member} {n : Nat} {kw0 : KWorld}
    (hs : KStarted cfg ms n .empty kw0) (hnd : (memberKeys ms).Nodup) (k : PublicKey) (evs : List KEv)
    (ht : Tidy cfg.self k kw0.w (krun cfg kw0 evs).log)
    (hfifo : ∀ i hosts, .deliver i hosts ∈ evs → i = 0)
    (hsign : ∀ pk acts hosts, .sign pk acts hosts ∈ evs → ¬ TouchesKey k acts)
    (hquiet : ∀ x ∈ (krun cfg kw0 evs).queue, ¬ TouchesKey k x.2.actions) :
    (.key k ∈ getMembers (krun cfg kw0 evs).w.c ∧
      (krun cfg kw0 evs).keys.get k =
        some (.fn cfg.self "add_request,delete_request,confirm,add_and_confirm_request")) ∨
    (.key k ∉ getMembers (krun cfg kw0 evs).w.c ∧ (krun cfg kw0 evs).keys.get k = none) := by
  obtain ⟨h, _⟩ := sync_run hs hnd evs ht (List.prefix_refl _) hfifo hsign
  have h0 : queueOps k (krun cfg kw0 evs).queue = [] := by
    unfold queueOps
    rw [List.flatMap_eq_nil_iff]
    intro x hx
    have := hquiet x hx
    unfold keyOps
    rw [List.filterMap_eq_nil_iff]
    intro a ha
    split
    · rename_i hg
      obtain ⟨⟨k', p⟩, h1, h2⟩ := Option.map_eq_some_iff.mp hg
      exact absurd ⟨a, ha, .inl ⟨p, by rw [h1, ← h2]⟩⟩ this
    · split
      · rename_i hg
        exact absurd ⟨a, ha, .inr hg⟩ this
      · rfl
  have h1 := h.ops
  rw [h0] at h1
  simp only [settle, Option.some.injEq, hasKey, isMember] at h1
  cases hk : (krun cfg kw0 evs).keys.get k with
  | none =>
    rw [hk] at h1
    exact .inr ⟨of_decide_eq_false h1.symm, rfl⟩
  | some p =>
    rw [hk] at h1
    have := h.perm p hk
    subst this
    exact .inl ⟨of_decide_eq_true h1.symm, rfl⟩

/-- The calls that the history `demoJoin` consists of. -/
def demoJoinLog : List Ev :=
  [.call "ms" "k1" 0 true (.addRequest demoK2), .call "ms" "k1" 0 true (.confirm 0),
   .call "bob" "bobkey" 0 true (.confirm 0)]

theorem split3 {α : Type} {a b c x : α} {l1 l2 : List α} (h : [a, b, c] = l1 ++ x :: l2) :
    (l1 = [] ∧ x = a) ∨ (l1 = [a] ∧ x = b) ∨ (l1 = [a, b] ∧ x = c) := by
  match l1, h with
  | [], h => simp only [List.nil_append, List.cons.injEq] at h; exact .inl ⟨rfl, h.1.symm⟩
  | [_], h =>
    simp only [List.cons_append, List.nil_append, List.cons.injEq] at h
    exact .inr (.inl ⟨by rw [h.1], h.2.1.symm⟩)
  | [_, _], h =>
    simp only [List.cons_append, List.nil_append, List.cons.injEq] at h
    exact .inr (.inr ⟨by rw [h.1, h.2.1], h.2.2.1.symm⟩)
  | _ :: _ :: _ :: t, h =>
    simp only [List.cons_append, List.cons.injEq] at h
    exact absurd h.2.2.2.symm (by simp)

theorem demoJoin_tidy : Tidy "ms" "k2" demoK.w demoJoinLog := by
  intro l1 ev l2 id b m q hl hi ⟨a1, e, a2, ha, hadd⟩ hq
  have hlen := congrArg List.length hi
  rw [List.length_cons] at hlen
  rcases split3 hl with ⟨rfl, rfl⟩ | ⟨rfl, rfl⟩ | ⟨rfl, rfl⟩
  · exact absurd hlen (by decide +kernel)
  · exact absurd hlen (by decide +kernel)
  · have : q = demoK2 := by
      obtain ⟨who, pk, host, c, r, _, he, hc, _⟩ := hadd
      rcases split3 ha with ⟨rfl, rfl⟩ | ⟨rfl, rfl⟩ | ⟨rfl, rfl⟩
      · cases he
        rcases hc with hc | hc <;> cases hc
        rfl
      · cases he; rcases hc with hc | hc <;> cases hc
      · cases he; rcases hc with hc | hc <;> cases hc
    subst this
    exact .inl ⟨rfl, by decide +kernel⟩

/-- The hypotheses are met by the history in which `k2` joins. -/
example : KStarted demoKCfg demoMembers 2 .empty demoK ∧ (memberKeys demoMembers).Nodup ∧
    Tidy "ms" "k2" demoK.w (krun demoKCfg demoK demoJoin).log ∧
    (krun demoKCfg demoK demoJoin).queue = [] ∧
    .key "k2" ∈ getMembers (krun demoKCfg demoK demoJoin).w.c := by
  refine ⟨demoK_started, by decide, ?_, by decide +kernel, by decide +kernel⟩
  have : (krun demoKCfg demoK demoJoin).log = demoJoinLog := by decide +kernel
  rw [this]
  exact demoJoin_tidy

/-- **C98, as observed.** Without that discipline members and access keys part: there is a history, in
which batches arrive in order and all have arrived, that ends with a member key which is no access key of
the account. The request adds a new key together with one that is a member already: the membership is
recorded although the batch fails as a whole. -/
theorem C98_mixed_request_parts_them :
    ∃ cfg ms n kw0 evs k, KStarted cfg ms n .empty kw0 ∧ (memberKeys ms).Nodup ∧
      (∀ i hosts, .deliver i hosts ∈ evs → i = 0) ∧
      (∀ pk acts hosts, .sign pk acts hosts ∈ evs → ∀ k, ¬ TouchesKey k acts) ∧
      (krun cfg kw0 evs).queue = [] ∧ .key k ∈ getMembers (krun cfg kw0 evs).w.c ∧
      (krun cfg kw0 evs).keys.get k = none := by
  refine ⟨demoKCfg, demoMembers, 2, demoK,
    [.deliver 0 [], demoTx "k1" "add_request" 2, demoTx "k1" "confirm" 0,
      .foreign "bob" "bobkey" 0 true (.confirm 0), .deliver 0 []], "k3", demoK_started, by decide, ?_, ?_,
    by decide +kernel, by decide +kernel, by decide +kernel⟩
  · intro i hosts h
    simp only [demoTx, List.mem_cons, KEv.deliver.injEq, reduceCtorEq, List.not_mem_nil, or_false,
      false_or] at h
    tauto
  · intro pk acts hosts h k
    simp only [demoTx, List.mem_cons, KEv.sign.injEq, reduceCtorEq, List.not_mem_nil, or_false,
      false_or] at h
    rcases h with ⟨rfl, rfl, rfl⟩ | ⟨rfl, rfl, rfl⟩ <;>
    · rintro ⟨a, ha, h⟩
      rw [List.mem_singleton] at ha
      subst ha
      rcases h with ⟨p, h⟩ | h <;> cases h

/-! ## C99 -/

/-- The account members. -/
def accountMembers (ms : List Member) : List Member :=
  ms.filter (fun m => match m with | .account _ => true | .key _ => false)

theorem quiet_so_far {self : AccountId} {w0 : World} (l : List Ev) (h : (run self w0 l).issued = []) :
    (run self w0 l).c.members = w0.c.members ∧
    (run self w0 l).c.numConfirmations = w0.c.numConfirmations ∧
    ∀ l1 l2, l = l1 ++ l2 → (run self w0 l1).c.members = w0.c.members := by
  induction l using List.reverseRecOn with
  | nil =>
    refine ⟨rfl, rfl, fun l1 l2 h => ?_⟩
    obtain ⟨rfl, _⟩ := List.append_eq_nil_iff.mp h.symm
    rfl
  | append_singleton l ev ih =>
    have hq : (step self (run self w0 l) ev).issued = (run self w0 l).issued := by
      by_contra hne
      obtain ⟨who, k, host, c, r, b, _, _, _, hst⟩ := issue_step hne
      rw [run_snoc, hst] at h
      cases h
    obtain ⟨h1, h2, h3⟩ := ih (by rw [run_snoc, hq] at h; exact h)
    obtain ⟨g1, _, g3⟩ := quiet_config hq
    refine ⟨by rw [run_snoc, g3, h1], by rw [run_snoc, g1, h2], fun l1 l2 he => ?_⟩
    rcases List.eq_nil_or_concat l2 with rfl | ⟨l3, x, rfl⟩
    · rw [List.append_nil] at he; rw [← he, run_snoc, g3, h1]
    · have : l ++ [ev] = (l1 ++ l3) ++ [x] := by rw [he]; simp
      exact h3 l1 l3 (List.append_inj' this rfl).1

/-- **C99.** If the members given at the initialization of an account without other keys contain a key
twice, the batch that adds the member keys fails as a whole. If moreover fewer distinct accounts than
`num_confirmations` are members, the account is locked for good: whatever happens, in whatever order
batches arrive, it never has an access key, no request is ever executed, and neither members nor
threshold ever change. -/
theorem C99_duplicate_key_locks {cfg : KCfg} {ms : List Member} {n : Nat} {kw0 : KWorld}
    (hs : KStarted cfg ms n .empty kw0) (hdup : ¬ (memberKeys ms).Nodup)
    (hfew : (accountMembers ms).dedup.length < n) (evs : List KEv) :
    (∀ k, (krun cfg kw0 evs).keys.get k = none) ∧ (krun cfg kw0 evs).w.issued = [] ∧
    getMembers (krun cfg kw0 evs).w.c = getMembers kw0.w.c ∧
    getNumConfirmations (krun cfg kw0 evs).w.c = n := by
  have hst := hs.started
  obtain ⟨_, _, hc0, _⟩ := started_c hst
  have hn0 : kw0.w.c.numConfirmations = n := by rw [hc0]
  have hm0 : ∀ m, m ∈ getMembers kw0.w.c ↔ m ∈ ms := by
    intro m
    rw [hc0]
    show m ∈ (insertAll .empty ms).keys ↔ _
    rw [mem_insertAll]
    exact ⟨fun h => h.resolve_left (by intro h; cases h), .inr⟩
  have inv : (∀ k, (krun cfg kw0 evs).keys.get k = none) ∧
      (∀ x ∈ (krun cfg kw0 evs).queue, x.2.actions = founding cfg.self (memberKeys ms)) ∧
      (∀ who pk d host c, .call who pk d host c ∈ (krun cfg kw0 evs).log → who ≠ cfg.self) ∧
      (krun cfg kw0 evs).w.issued = [] := by
    induction evs using List.reverseRecOn with
    | nil =>
      obtain ⟨c, b, now, who, pk, hn, rfl⟩ := hs
      obtain ⟨_, _, _, _, _, hx⟩ := new_ok.mp hn
      cases hx
      refine ⟨fun _ => rfl, ?_, fun _ _ _ _ _ h => (by cases h), rfl⟩
      intro x hx
      simp only [krun, List.mem_singleton] at hx
      subst hx
      exact founding_eq _ _
    | append_singleton l ev ih =>
      have hw := log_run hs l
      rw [krun_snoc]
      generalize krun cfg kw0 l = kw at ih hw
      obtain ⟨h1, h2, h3, h4⟩ := ih
      rcases kstep_cases cfg kw ev with ⟨q, g1, g2⟩ | ⟨pk, acts, hosts, kw', rfl, hsg, hb, g1⟩ |
        ⟨i, hosts, x, kw', rfl, hx, hb, g1⟩ | ⟨who, pk, att, host, c, kw', rfl, hne, hc, g1⟩ | ⟨dt, rfl⟩
      · rw [g1]; exact ⟨h1, fun x hx => h2 x (g2 x hx), h3, h4⟩
      · obtain ⟨p, hp, _⟩ := hsg
        rw [h1] at hp; cases hp
      · rw [h2 x (List.mem_of_getElem? hx)] at hb
        rw [(run_founding cfg x.1 (memberKeys ms) { kw with queue := kw.queue.eraseIdx i } hosts (fun k _ => h1 k)).2 hdup] at hb
        cases hb
      · rw [g1]
        obtain ⟨r, hr, rfl, hstep⟩ := callK_some hc
        have hlog : ∀ who' pk' d' host' c',
            Ev.call who' pk' d' host' c' ∈ kw.log ++ [.call who pk att host c] → who' ≠ cfg.self := by
          intro who' pk' d' host' c' h
          rcases List.mem_append.mp h with h | h
          · exact h3 _ _ _ _ _ h
          · rw [List.mem_singleton] at h; cases h; exact hne
        have hnone : r.batch = none := by
          by_contra hb
          obtain ⟨b, hb⟩ := Option.ne_none_iff_exists'.mp hb
          have hi : (step cfg.self (run cfg.self kw0.w kw.log) (.call who pk att host c)).issued =
              (r.id, b) :: (run cfg.self kw0.w kw.log).issued := by
            rw [← hw, hstep]; simp only [logged, hb]
          obtain ⟨l1, e1, l2, m0, q, g3, _, _, conf, g6, g7, g8⟩ :=
            C46_enough_distinct_members hst kw.log _ hi
          obtain ⟨_, hq2, hq3⟩ := quiet_so_far (self := cfg.self) (w0 := kw0.w) kw.log (by rw [← hw]; exact h4)
          have hle : conf.length ≤ (accountMembers ms).dedup.length := by
            refine (List.subperm_of_subset g6 fun m hm => ?_).length_le
            obtain ⟨a, e, a', ha, ⟨who', pk', host', r', hact, hev⟩, hmem⟩ := g8 m hm
            have hin : e ∈ kw.log ++ [.call who pk att host c] := by
              rw [g3, ha]; simp
            have hw' : who' ≠ cfg.self := by
              rcases hev with ⟨rfl, _⟩ | ⟨q, rfl, _⟩ <;> exact hlog _ _ _ _ _ hin
            rw [actor, if_neg (Ne.symm hw')] at hact
            rw [List.mem_dedup]
            unfold accountMembers
            refine List.mem_filter.mpr ⟨?_, by rw [← hact]⟩
            rw [← hm0]
            have hrun : run cfg.self (run cfg.self kw0.w l1) a = run cfg.self kw0.w (l1 ++ a) := by
              rw [run_append]
            rw [hrun] at hmem
            rw [ha] at g3
            have hpre : ∃ l4, kw.log = (l1 ++ a) ++ l4 := by
              rcases List.eq_nil_or_concat a' with rfl | ⟨l4, x, rfl⟩
              · have : kw.log ++ [Ev.call who pk att host c] = (l1 ++ a) ++ [e] := by rw [g3]; simp
                exact ⟨[], by rw [(List.append_inj' this rfl).1, List.append_nil]⟩
              · have : kw.log ++ [Ev.call who pk att host c] = (l1 ++ a ++ e :: l4) ++ [x] := by
                  rw [g3]; simp
                exact ⟨e :: l4, (List.append_inj' this rfl).1⟩
            obtain ⟨l4, hl4⟩ := hpre
            unfold getMembers at hmem ⊢
            rwa [hq3 _ l4 hl4] at hmem
          unfold getNumConfirmations at g7
          rw [hq2, hn0] at g7
          omega
        refine ⟨h1, ?_, hlog, ?_⟩
        · simp only [enqueue, hnone]; exact h2
        · simp only [logged, hnone]; exact h4
      · refine ⟨h1, h2, ?_, h4⟩
        intro who' pk' d' host' c' h
        rcases List.mem_append.mp h with h | h
        · exact h3 _ _ _ _ _ h
        · rw [List.mem_singleton] at h; cases h
  obtain ⟨h1, _, _, h4⟩ := inv
  have hw := log_run hs evs
  obtain ⟨g1, g2, _⟩ := quiet_so_far (self := cfg.self) (w0 := kw0.w) (krun cfg kw0 evs).log (by rw [← hw]; exact h4)
  refine ⟨h1, h4, ?_, ?_⟩
  · unfold getMembers; rw [hw, g1]
  · unfold getNumConfirmations; rw [hw, g2, hn0]

/-- `new` accepts a key twice together with an account, and wants two confirmations. -/
example : KStarted demoKCfg [.key "k1", .account "bob", .key "k1"] 2 .empty
      (kstartWith [.key "k1", .account "bob", .key "k1"] 2) ∧
    ¬ (memberKeys [.key "k1", .account "bob", .key "k1"]).Nodup ∧
    (accountMembers [.key "k1", .account "bob", .key "k1"]).dedup.length < 2 :=
  ⟨⟨_, _, 1000, "founder", "fk", rfl, rfl⟩, by decide, by decide⟩

end Verif.Multisig2
