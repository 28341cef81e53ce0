import Verif.Multisig2.Keys

/-! # Key members and access keys stay in step: lemmas for C98 and C99 -/

namespace Verif.Multisig2

open Verif

/-- The request adds or deletes the key member `k` or adds an access key `k`. -/
def Request.mentions (k : PublicKey) (q : Request) : Prop :=
  .addMember (.key k) ∈ q.actions ∨ .deleteMember (.key k) ∈ q.actions ∨ ∃ p, .addKey k p ∈ q.actions

/-- The actions add or delete the access key `k`. -/
def TouchesKey (k : PublicKey) (acts : List PAction) : Prop :=
  ∃ a ∈ acts, (∃ p, a.grants = some (k, p)) ∨ a.deletes = some k

/-- Every executed request that mentions `k` consists of that single action, adding `k` when it is not a
member or deleting it when it is one. -/
def Tidy (self : AccountId) (k : PublicKey) (w0 : World) (log : List Ev) : Prop :=
  ∀ l1 ev l2 id b m q, log = l1 ++ ev :: l2 →
    (step self (run self w0 l1) ev).issued = (id, b) :: (run self w0 l1).issued →
    Sometime self w0 (l1 ++ [ev]) (fun w e => Adds self w e m id q) → q.mentions k →
    (q.actions = [.addMember (.key k)] ∧ .key k ∉ getMembers (run self w0 l1).c) ∨
    (q.actions = [.deleteMember (.key k)] ∧ .key k ∈ getMembers (run self w0 l1).c)

/-- What the actions do to the key `k`, in order: `true` for adding, `false` for deleting. -/
def keyOps (k : PublicKey) (acts : List PAction) : List Bool :=
  acts.filterMap (fun a =>
    if a.grants.map Prod.fst = some k then some true else if a.deletes = some k then some false else none)

/-- The same for the batches under way. -/
def queueOps (k : PublicKey) (q : List (PublicKey × Batch)) : List Bool :=
  q.flatMap (fun x => keyOps k x.2.actions)

/-- The presence of a key after the operations; `none` if one of them fails. -/
def settle : Bool → List Bool → Option Bool
  | b, [] => some b
  | b, o :: t => if o = b then none else settle o t

theorem settle_append {b c : Bool} {l1 : List Bool} (l2 : List Bool) (h : settle b l1 = some c) :
    settle b (l1 ++ l2) = settle c l2 := by
  induction l1 generalizing b with
  | nil => cases h; rfl
  | cons o t ih =>
    simp only [settle, List.cons_append] at h ⊢
    split at h
    · cases h
    · rename_i hne; rw [if_neg hne]; exact ih h

/-- The forms of batches that `Tidy` allows. -/
def Shape (self : AccountId) (k : PublicKey) (x : PublicKey × Batch) : Prop :=
  ¬ TouchesKey k x.2.actions ∨ x.2.actions = [.addAccessKey k 0 self multisigMethodNames] ∨
    x.2.actions = [.deleteKey k]

theorem keyOps_untouched {k : PublicKey} {acts : List PAction} (h : ¬ TouchesKey k acts) :
    keyOps k acts = [] := by
  unfold keyOps
  rw [List.filterMap_eq_nil_iff]
  intro a ha
  rw [if_neg, if_neg]
  · intro hd; exact h ⟨a, ha, .inr hd⟩
  · intro hd
    cases hx : a.grants with
    | none => rw [hx] at hd; cases hd
    | some y =>
      rw [hx] at hd
      simp only [Option.map_some, Option.some.injEq] at hd
      exact h ⟨a, ha, .inl ⟨y.2, by rw [hx, ← hd]⟩⟩

theorem keyOps_add (self : AccountId) (k : PublicKey) :
    keyOps k [.addAccessKey k 0 self multisigMethodNames] = [true] := by
  simp [keyOps, PAction.grants]

theorem keyOps_del (k : PublicKey) : keyOps k [.deleteKey k] = [false] := by
  simp [keyOps, PAction.grants, PAction.deletes]

theorem touches_mentions {self : AccountId} {k : PublicKey} {q : Request}
    (h : TouchesKey k (q.toBatch self).actions) : q.mentions k := by
  obtain ⟨a, ha, h⟩ := h
  obtain ⟨x, hx, hxa⟩ := List.mem_filterMap.mp ha
  cases x with
  | addMember m =>
    cases m with
    | key k1 =>
      cases hxa
      rcases h with ⟨p, h⟩ | h
      · cases h; exact .inl hx
      · cases h
    | account a => cases hxa
  | deleteMember m =>
    cases m with
    | key k1 =>
      cases hxa
      rcases h with ⟨p, h⟩ | h
      · cases h
      · cases h; exact .inr (.inl hx)
    | account a => cases hxa
  | addKey k1 p =>
    cases p with
    | none =>
      cases hxa
      rcases h with ⟨p, h⟩ | h
      · cases h; exact .inr (.inr ⟨_, hx⟩)
      · cases h
    | some f =>
      cases hxa
      rcases h with ⟨p, h⟩ | h
      · cases h; exact .inr (.inr ⟨_, hx⟩)
      · cases h
  | transfer x => cases hxa; rcases h with ⟨p, h⟩ | h <;> cases h
  | createAccount => cases hxa; rcases h with ⟨p, h⟩ | h <;> cases h
  | deployContract c => cases hxa; rcases h with ⟨p, h⟩ | h <;> cases h
  | functionCall m a d g => cases hxa; rcases h with ⟨p, h⟩ | h <;> cases h
  | setNumConfirmations n => cases hxa
  | setActiveRequestsLimit n => cases hxa

theorem apply_unmentioned {k : PublicKey} (l : List Action) (s : State)
    (h1 : .addMember (.key k) ∉ l) (h2 : .deleteMember (.key k) ∉ l) :
    Member.key k ∈ getMembers (applyActions s l) ↔ Member.key k ∈ getMembers s := by
  induction l generalizing s with
  | nil => exact Iff.rfl
  | cons a t ih =>
    refine (ih (applyAction s a) (fun h => h1 (List.mem_cons_of_mem _ h))
      (fun h => h2 (List.mem_cons_of_mem _ h))).trans ?_
    cases a with
    | addMember m =>
      have hne : m ≠ .key k := by rintro rfl; exact h1 List.mem_cons_self
      simp only [applyAction, getMembers, UMap.mem_keys_insert]
      exact ⟨fun h => h.resolve_left (fun h => hne h.symm), .inr⟩
    | deleteMember m =>
      have hne : m ≠ .key k := by rintro rfl; exact h2 List.mem_cons_self
      simp only [applyAction, getMembers, UMap.mem_keys_remove]
      exact ⟨fun h => h.2, fun h => ⟨fun h => hne h.symm, h⟩⟩
    | _ => exact Iff.rfl

/-- Whether `k` is a key member. -/
def isMember (s : State) (k : PublicKey) : Bool := decide (Member.key k ∈ getMembers s)

/-- A call under `Tidy`: what is appended to the batches under way matches the change of membership. -/
theorem tidy_call {cfg : KCfg} {ms : List Member} {n : Nat} {w0 : World} {k : PublicKey}
    (hs : Started cfg.self ms n w0) {kw kw' : KWorld} (hw : kw.w = run cfg.self w0 kw.log)
    {who : AccountId} {pk : PublicKey} {d : Nat} {host : Bool} {c : Call}
    (hc : callK cfg kw who pk d host c = some kw') {final : List Ev} (ht : Tidy cfg.self k w0 final)
    (hpre : kw'.log <+: final) :
    ∃ l, kw'.queue = kw.queue ++ l ∧ (∀ x ∈ l, Shape cfg.self k x) ∧ kw'.keys = kw.keys ∧
      settle (isMember kw.w.c k) (queueOps k l) = some (isMember kw'.w.c k) := by
  obtain ⟨r, hr, rfl, hst⟩ := callK_some hc
  obtain ⟨_, _, hd, _⟩ := exec_facts hr
  have hd0 : d = 0 := hd
  subst hd0
  cases hb : r.batch with
  | none =>
    have hq := quiet_config (self := cfg.self) (w := kw.w) (ev := .call who pk 0 host c)
      (by rw [hst]; simp [logged, hb])
    rw [hst] at hq
    refine ⟨[], by simp [enqueue, hb], by simp, rfl, ?_⟩
    have e1 : isMember r.c k = isMember kw.w.c k := by
      have h3 : r.c.members = kw.w.c.members := hq.2.2
      unfold isMember getMembers
      rw [decide_eq_decide, h3]
    show settle (isMember kw.w.c k) _ = some (isMember r.c k)
    rw [e1]; rfl
  | some b =>
    obtain ⟨tail, hfin⟩ := hpre
    simp only [List.append_assoc, List.singleton_append] at hfin
    obtain ⟨m', q, h1, h2, s1, st, h3, h4, h5, h6, h7, h8⟩ := issue_origin (evs := kw.log) hs rfl
      (by rw [← hw]; exact hr) hb
    rw [← hw] at h6
    have hT := ht kw.log _ tail r.id b m' q hfin.symm (by rw [← hw, hst]; simp [logged, hb]) h1
    rw [← hw] at hT
    have hmem : ∀ m, m ∈ getMembers { s1 with book := s1.book.remove Member.str r.id st } ↔
        m ∈ getMembers kw.w.c := by
      intro m; simp only [getMembers]; rw [h6]
    by_cases hm : q.mentions k
    · rcases hT hm with ⟨g1, g2⟩ | ⟨g1, g2⟩
      · have hrec : q.receiver = cfg.self := by
          unfold Executable at h7; rw [g1] at h7; exact h7.1
        have hbe : b = ⟨cfg.self, [.addAccessKey k 0 cfg.self multisigMethodNames]⟩ := by
          rw [h2]; unfold Request.toBatch; rw [g1, hrec]; rfl
        refine ⟨[(pk, b)], by simp [enqueue, hb, hbe], ?_, rfl, ?_⟩
        · intro x hx
          rw [List.mem_singleton] at hx; subst hx
          exact .inr (.inl (by rw [hbe]))
        · have e1 : isMember kw.w.c k = false := by simp [isMember, g2]
          have e2 : isMember r.c k = true := by
            rw [h8, g1]
            simp [isMember, applyActions, applyAction, getMembers, UMap.mem_keys_insert]
          show settle (isMember kw.w.c k) _ = some (isMember r.c k)
          rw [e1, e2, hbe]
          simp [queueOps, keyOps, PAction.grants, settle]
      · have hrec : q.receiver = cfg.self := by
          unfold Executable at h7; rw [g1] at h7; exact h7.1.1
        have hbe : b = ⟨cfg.self, [.deleteKey k]⟩ := by
          rw [h2]; unfold Request.toBatch; rw [g1, hrec]; rfl
        refine ⟨[(pk, b)], by simp [enqueue, hb, hbe], ?_, rfl, ?_⟩
        · intro x hx
          rw [List.mem_singleton] at hx; subst hx
          exact .inr (.inr (by rw [hbe]))
        · have e1 : isMember kw.w.c k = true := by simp [isMember, g2]
          have e2 : isMember r.c k = false := by
            rw [h8, g1]
            simp [isMember, applyActions, applyAction, getMembers, UMap.mem_keys_remove]
          show settle (isMember kw.w.c k) _ = some (isMember r.c k)
          rw [e1, e2, hbe]
          simp [queueOps, keyOps, PAction.grants, PAction.deletes, settle]
    · have hun : ¬ TouchesKey k b.actions := by
        rw [h2]; exact fun h => hm (touches_mentions h)
      have e1 : isMember r.c k = isMember kw.w.c k := by
        unfold isMember
        rw [decide_eq_decide, h8, apply_unmentioned _ _ (fun h => hm (.inl h))
          (fun h => hm (.inr (.inl h))), hmem]
      by_cases hself : b.receiver = cfg.self
      · refine ⟨[(pk, b)], by simp [enqueue, hb, hself], ?_, rfl, ?_⟩
        · intro x hx
          rw [List.mem_singleton] at hx; subst hx
          exact .inl hun
        · show settle (isMember kw.w.c k) _ = some (isMember r.c k)
          rw [e1]
          simp [queueOps, keyOps_untouched hun, settle]
      · refine ⟨[], by simp [enqueue, hb, hself], by simp, rfl, ?_⟩
        show settle (isMember kw.w.c k) _ = some (isMember r.c k)
        rw [e1]; rfl

/-- The access key of a key member. -/
def memberPerm (self : AccountId) : Perm := .fn self multisigMethodNames

/-- Whether the account has the key `k`. -/
def hasKey (kw : KWorld) (k : PublicKey) : Bool := (kw.keys.get k).isSome

/-- Once all batches under way have arrived, `k` is an access key exactly if it is a member. -/
structure SyncInv (acct : AccountId) (k : PublicKey) (kw : KWorld) : Prop where
  ops : settle (hasKey kw k) (queueOps k kw.queue) = some (isMember kw.w.c k)
  perm : ∀ p, kw.keys.get k = some p → p = memberPerm acct

theorem SyncInv.call {cfg : KCfg} {ms : List Member} {n : Nat} {w0 : World} {k : PublicKey}
    (hs : Started cfg.self ms n w0) {kw kw' : KWorld} (hw : kw.w = run cfg.self w0 kw.log)
    {who : AccountId} {pk : PublicKey} {d : Nat} {host : Bool} {c : Call}
    (hc : callK cfg kw who pk d host c = some kw') {final : List Ev} (ht : Tidy cfg.self k w0 final)
    (hpre : kw'.log <+: final) (h : SyncInv cfg.self k kw) :
    SyncInv cfg.self k kw' ∧ ∃ l, kw'.queue = kw.queue ++ l ∧ ∀ x ∈ l, Shape cfg.self k x := by
  obtain ⟨l, h1, h2, h3, h4⟩ := tidy_call hs hw hc ht hpre
  refine ⟨⟨?_, by rw [h3]; exact h.perm⟩, l, h1, h2⟩
  have : hasKey kw' k = hasKey kw k := by unfold hasKey; rw [h3]
  rw [this, h1]
  unfold queueOps
  rw [List.flatMap_append]
  exact (settle_append _ h.ops).trans h4

/-- A batch that does not touch `k`. -/
theorem SyncInv.batch {cfg : KCfg} {ms : List Member} {n : Nat} {w0 : World} {k : PublicKey}
    (hs : Started cfg.self ms n w0) {pk : PublicKey} {acts : List PAction}
    (hun : ¬ TouchesKey k acts) {kw kw' : KWorld} (hw : kw.w = run cfg.self w0 kw.log)
    {hosts : List Bool} (hb : runBatch cfg pk kw hosts acts = some kw')
    {final : List Ev} (ht : Tidy cfg.self k w0 final) (hpre : kw'.log <+: final)
    (h : SyncInv cfg.self k kw) (hsh : ∀ x ∈ kw.queue, Shape cfg.self k x) :
    SyncInv cfg.self k kw' ∧ ∀ x ∈ kw'.queue, Shape cfg.self k x := by
  have main := runBatch_induct (fun kw => kw.w = run cfg.self w0 kw.log ∧
      (kw.log <+: final → SyncInv cfg.self k kw ∧ ∀ x ∈ kw.queue, Shape cfg.self k x)) acts
      ?_ ?_ ?_ hb ⟨hw, fun _ => ⟨h, hsh⟩⟩
  · exact main.2 hpre
  · rintro kw a k' p ha hadd - ⟨g1, g2⟩
    refine ⟨g1, fun hp => ?_⟩
    obtain ⟨g3, g4⟩ := g2 hp
    have hne : k' ≠ k := by rintro rfl; exact hun ⟨a, ha, .inl ⟨p, hadd⟩⟩
    refine ⟨⟨?_, ?_⟩, g4⟩
    · have : hasKey { kw with keys := kw.keys.insert k' p } k = hasKey kw k := by
        unfold hasKey; simp only; rw [UMap.get_insert_ne hne]
      rw [this]; exact g3.ops
    · intro p' hg
      simp only [UMap.get_insert_ne hne] at hg
      exact g3.perm p' hg
  · rintro kw a k' ha hdel ⟨g1, g2⟩
    refine ⟨g1, fun hp => ?_⟩
    obtain ⟨g3, g4⟩ := g2 hp
    have hne : k' ≠ k := by rintro rfl; exact hun ⟨a, ha, .inr hdel⟩
    refine ⟨⟨?_, ?_⟩, g4⟩
    · have : hasKey { kw with keys := kw.keys.remove k' } k = hasKey kw k := by
        unfold hasKey; simp only; rw [UMap.get_remove_ne hne]
      rw [this]; exact g3.ops
    · intro p' hg
      simp only [UMap.get_remove_ne hne] at hg
      exact g3.perm p' hg
  · rintro kw1 kw2 d host c hc ⟨g1, g2⟩
    obtain ⟨r, _, e, hst⟩ := callK_some hc
    refine ⟨by rw [e]; simp only; rw [run_snoc, ← g1, hst], fun hp => ?_⟩
    have hp1 : kw1.log <+: final := by
      refine List.IsPrefix.trans ?_ hp
      rw [e]; exact List.prefix_append _ _
    obtain ⟨g3, g4⟩ := g2 hp1
    obtain ⟨f1, l, f2, f3⟩ := g3.call hs g1 hc ht hp
    refine ⟨f1, fun x hx => ?_⟩
    rw [f2] at hx
    rcases List.mem_append.mp hx with hx | hx
    · exact g4 x hx
    · exact f3 x hx

/-! ## The batch of `new` -/

/-- The actions of the batch of `new`. -/
def founding (self : AccountId) (ks : List PublicKey) : List PAction :=
  ks.map (fun k => .addAccessKey k 0 self multisigMethodNames)

theorem founding_eq (self : AccountId) (ms : List Member) :
    ms.flatMap (memberKeyAction self) = founding self (memberKeys ms) := by
  induction ms with
  | nil => rfl
  | cons m t ih =>
    rw [List.flatMap_cons, ih]
    cases m <;> rfl

theorem mem_memberKeys {ms : List Member} {k : PublicKey} : k ∈ memberKeys ms ↔ .key k ∈ ms := by
  unfold memberKeys
  rw [List.mem_filterMap]
  constructor
  · rintro ⟨m, h1, h2⟩
    cases m with
    | key k' => simp only [Option.some.injEq] at h2; rw [← h2]; exact h1
    | account a => cases h2
  · intro h; exact ⟨_, h, rfl⟩

/-- The founding batch arrives at an account without these keys: it succeeds exactly if there are no
duplicates, and then the account has these keys in addition. -/
theorem run_founding (cfg : KCfg) (pk : PublicKey) (ks : List PublicKey) (kw : KWorld)
    (hosts : List Bool) (h : ∀ k ∈ ks, kw.keys.get k = none) :
    (ks.Nodup → ∃ keys', runBatch cfg pk kw hosts (founding cfg.self ks) = some { kw with keys := keys' } ∧
      ∀ k, keys'.get k = if k ∈ ks then some (memberPerm cfg.self) else kw.keys.get k) ∧
    (¬ ks.Nodup → runBatch cfg pk kw hosts (founding cfg.self ks) = none) := by
  induction ks generalizing kw with
  | nil => exact ⟨fun _ => ⟨kw.keys, rfl, fun k => by simp⟩, fun h => absurd List.nodup_nil h⟩
  | cons k t ih =>
    have h0 := h k List.mem_cons_self
    have hrun : runBatch cfg pk kw hosts (founding cfg.self (k :: t)) =
        runBatch cfg pk { kw with keys := kw.keys.insert k (memberPerm cfg.self) } hosts
          (founding cfg.self t) := by
      simp only [founding, List.map_cons, runBatch, h0]; rfl
    rw [hrun]
    by_cases hk : k ∈ t
    · refine ⟨fun hn => absurd hk (List.nodup_cons.mp hn).1, fun _ => ?_⟩
      clear ih hrun
      -- the key is added a second time somewhere in `t`
      have : ∀ (t : List PublicKey) (kw : KWorld), k ∈ t → kw.keys.get k ≠ none →
          runBatch cfg pk kw hosts (founding cfg.self t) = none := by
        intro t
        induction t with
        | nil => intro kw hk; cases hk
        | cons a t ih =>
          intro kw hk hg
          show runBatch cfg pk kw hosts (.addAccessKey a 0 cfg.self multisigMethodNames ::
            founding cfg.self t) = none
          simp only [runBatch]
          split
          · rename_i hn
            have hne : k ≠ a := by rintro rfl; exact hg hn
            refine ih _ ((List.mem_cons.mp hk).resolve_left hne) ?_
            simp only
            rw [UMap.get_insert_ne (Ne.symm hne)]; exact hg
          · rfl
      exact this t _ hk (by simp)
    · obtain ⟨i1, i2⟩ := ih { kw with keys := kw.keys.insert k (memberPerm cfg.self) } (by
        intro k' hk'
        have hne : k ≠ k' := by rintro rfl; exact hk hk'
        simp only
        rw [UMap.get_insert_ne hne]
        exact h k' (List.mem_cons_of_mem _ hk'))
      constructor
      · intro hn
        obtain ⟨keys', e1, e2⟩ := i1 (List.nodup_cons.mp hn).2
        refine ⟨keys', e1, fun k' => ?_⟩
        rw [e2 k']
        simp only [UMap.get_insert, List.mem_cons]
        by_cases hkk : k = k'
        · subst hkk; simp
        · simp [hkk, Ne.symm hkk]
      · intro hn
        exact i2 (fun h => hn (List.nodup_cons.mpr ⟨hk, h⟩))

theorem keyOps_founding {self : AccountId} {k : PublicKey} {ks : List PublicKey} (h : ks.Nodup) :
    keyOps k (founding self ks) = if k ∈ ks then [true] else [] := by
  induction ks with
  | nil => rfl
  | cons a t ih =>
    obtain ⟨h1, h2⟩ := List.nodup_cons.mp h
    have ih := ih h2
    show keyOps k (.addAccessKey a 0 self multisigMethodNames :: founding self t) = _
    unfold keyOps at ih ⊢
    rw [List.filterMap_cons, ih]
    by_cases hk : a = k
    · subst hk; simp [PAction.grants, h1]
    · simp [PAction.grants, PAction.deletes, hk, Ne.symm hk]

/-! ## Whole histories -/

/-- The batches under way: before the founding batch has arrived the account has no keys. -/
def Phase (cfg : KCfg) (ms : List Member) (k : PublicKey) (kw : KWorld) : Prop :=
  (∀ x ∈ kw.queue, Shape cfg.self k x) ∨
  ((∀ k', kw.keys.get k' = none) ∧ ∃ pk b rest, kw.queue = (pk, b) :: rest ∧
    b.actions = founding cfg.self (memberKeys ms) ∧ ∀ x ∈ rest, Shape cfg.self k x)

theorem sync_step {cfg : KCfg} {ms : List Member} {n : Nat} {w0 : World} {k : PublicKey}
    (hs : Started cfg.self ms n w0) (hnd : (memberKeys ms).Nodup) {kw : KWorld} {ev : KEv}
    (hw : kw.w = run cfg.self w0 kw.log) {final : List Ev} (ht : Tidy cfg.self k w0 final)
    (hpre : (kstep cfg kw ev).log <+: final) (hfifo : ∀ i hosts, ev = .deliver i hosts → i = 0)
    (hsign : ∀ pk acts hosts, ev = .sign pk acts hosts → ¬ TouchesKey k acts)
    (h : SyncInv cfg.self k kw) (hph : Phase cfg ms k kw) :
    SyncInv cfg.self k (kstep cfg kw ev) ∧ Phase cfg ms k (kstep cfg kw ev) := by
  cases ev with
  | sign pk acts hosts =>
    simp only [kstep] at hpre ⊢
    cases hk : kw.keys.get pk with
    | none => exact ⟨h, hph⟩
    | some p =>
      rw [hk] at hpre
      simp only at hpre ⊢
      split at hpre <;> rename_i hp
      · rw [if_pos hp]
        cases hb : runBatch cfg pk kw hosts acts with
        | none => exact ⟨h, hph⟩
        | some kw' =>
          rw [hb] at hpre
          rcases hph with hph | ⟨hph, _⟩
          · obtain ⟨g1, g2⟩ := h.batch hs (hsign _ _ _ rfl) hw hb ht hpre hph
            exact ⟨g1, .inl g2⟩
          · rw [hph] at hk; cases hk
      · rw [if_neg hp]; exact ⟨h, hph⟩
  | foreign who pk att host c =>
    simp only [kstep] at hpre ⊢
    split at hpre <;> rename_i hw'
    · rw [if_pos hw']; exact ⟨h, hph⟩
    · rw [if_neg hw']
      cases hc : callK cfg kw who pk att host c with
      | none => exact ⟨h, hph⟩
      | some kw' =>
        rw [hc] at hpre
        obtain ⟨g1, l, g2, g3⟩ := h.call hs hw hc ht hpre
        refine ⟨g1, ?_⟩
        obtain ⟨r, _, e, _⟩ := callK_some hc
        simp only [Option.getD_some, Phase]
        rcases hph with hph | ⟨hph, pk, b, rest, f1, f2, f3⟩
        · left
          intro x hx
          rw [g2] at hx
          exact (List.mem_append.mp hx).elim (hph x) (g3 x)
        · right
          refine ⟨by rw [e]; exact hph, pk, b, rest ++ l, by rw [g2, f1]; rfl, f2, ?_⟩
          intro x hx
          exact (List.mem_append.mp hx).elim (f3 x) (g3 x)
  | tick dt => exact ⟨⟨h.ops, h.perm⟩, hph⟩
  | deliver i hosts =>
    obtain rfl := hfifo i hosts rfl
    cases hq : kw.queue with
    | nil =>
      have : kstep cfg kw (.deliver 0 hosts) = kw := by simp [kstep, hq]
      rw [this]; exact ⟨h, hph⟩
    | cons x rest =>
      have hkw : kstep cfg kw (.deliver 0 hosts) =
          (runBatch cfg x.1 { kw with queue := rest } hosts x.2.actions).getD
            { kw with queue := rest } := by simp [kstep, hq]
      rw [hkw] at hpre ⊢
      have hops := h.ops
      rw [hq] at hops
      simp only [queueOps, List.flatMap_cons] at hops
      rcases hph with hph | ⟨hph, pk, b, rest', f1, f2, f3⟩
      · have hrest : ∀ y ∈ rest, Shape cfg.self k y :=
          fun y hy => hph y (by rw [hq]; exact List.mem_cons_of_mem _ hy)
        rcases hph x (by rw [hq]; exact List.mem_cons_self) with hx | hx | hx
        · rw [keyOps_untouched hx] at hops
          have h' : SyncInv cfg.self k { kw with queue := rest } := ⟨hops, h.perm⟩
          cases hb : runBatch cfg x.1 { kw with queue := rest } hosts x.2.actions with
          | none => exact ⟨h', .inl hrest⟩
          | some kw' =>
            rw [hb] at hpre
            obtain ⟨g1, g2⟩ := h'.batch (kw := { kw with queue := rest }) hs hx hw hb ht hpre hrest
            exact ⟨g1, .inl g2⟩
        · rw [hx] at hops ⊢
          have hno : hasKey kw k = false := by
            rw [keyOps_add] at hops
            simp only [List.cons_append, List.nil_append, settle] at hops
            split at hops
            · cases hops
            · rename_i hne
              cases hv : hasKey kw k with
              | false => rfl
              | true => rw [hv] at hne; exact absurd rfl hne
          have hn : kw.keys.get k = none := by
            unfold hasKey at hno
            cases hg : kw.keys.get k with
            | none => rfl
            | some p => rw [hg] at hno; cases hno
          have hb : runBatch cfg x.1 { kw with queue := rest } hosts
              [.addAccessKey k 0 cfg.self multisigMethodNames] =
              some { kw with queue := rest, keys := kw.keys.insert k (memberPerm cfg.self) } := by
            simp only [runBatch, hn]; rfl
          rw [hb]
          refine ⟨⟨?_, ?_⟩, .inl hrest⟩
          · rw [keyOps_add] at hops
            simp only [List.cons_append, List.nil_append, settle, hno] at hops
            simpa [hasKey, queueOps] using hops
          · intro p hg
            simp only [Option.getD_some, UMap.get_insert_self, Option.some.injEq] at hg
            exact hg.symm
        · rw [hx] at hops ⊢
          have hyes : hasKey kw k = true := by
            rw [keyOps_del] at hops
            simp only [List.cons_append, List.nil_append, settle] at hops
            split at hops
            · cases hops
            · rename_i hne
              cases hv : hasKey kw k with
              | true => rfl
              | false => rw [hv] at hne; exact absurd rfl hne
          have hn : kw.keys.get k ≠ none := by
            unfold hasKey at hyes
            intro hg; rw [hg] at hyes; cases hyes
          have hb : runBatch cfg x.1 { kw with queue := rest } hosts [.deleteKey k] =
              some { kw with queue := rest, keys := kw.keys.remove k } := by
            simp only [runBatch]; rw [if_neg hn]
          rw [hb]
          refine ⟨⟨?_, ?_⟩, .inl hrest⟩
          · rw [keyOps_del] at hops
            simp only [List.cons_append, List.nil_append, settle, hyes] at hops
            simpa [hasKey, queueOps] using hops
          · intro p hg
            simp only [Option.getD_some, UMap.get_remove_self] at hg
            cases hg
      · rw [hq] at f1
        obtain ⟨rfl, rfl⟩ := List.cons.inj f1
        simp only at hpre hops ⊢
        rw [f2] at hops ⊢
        obtain ⟨keys', e1, e2⟩ := (run_founding cfg pk (memberKeys ms) { kw with queue := rest } hosts
          (fun k' _ => hph k')).1 hnd
        rw [e1]
        have hno : hasKey kw k = false := by unfold hasKey; rw [hph]; rfl
        rw [keyOps_founding hnd, hno] at hops
        have e3 := e2 k
        simp only [hph] at e3
        refine ⟨⟨?_, ?_⟩, .inl f3⟩
        · by_cases hk : k ∈ memberKeys ms
          · rw [if_pos hk] at hops e3
            simp only [hasKey, Option.getD_some, e3]
            simpa [settle, queueOps] using hops
          · rw [if_neg hk] at hops e3
            simp only [hasKey, Option.getD_some, e3]
            simpa [settle, queueOps] using hops
        · intro p hg
          simp only [Option.getD_some, e3] at hg
          split at hg
          · cases hg; rfl
          · cases hg

theorem sync_run {cfg : KCfg} {ms : List Member} {n : Nat} {kw0 : KWorld} {k : PublicKey}
    (hs : KStarted cfg ms n .empty kw0) (hnd : (memberKeys ms).Nodup) (evs : List KEv)
    {final : List Ev} (ht : Tidy cfg.self k kw0.w final)
    (hpre : (krun cfg kw0 evs).log <+: final) (hfifo : ∀ i hosts, .deliver i hosts ∈ evs → i = 0)
    (hsign : ∀ pk acts hosts, .sign pk acts hosts ∈ evs → ¬ TouchesKey k acts) :
    SyncInv cfg.self k (krun cfg kw0 evs) ∧ Phase cfg ms k (krun cfg kw0 evs) := by
  induction evs using List.reverseRecOn with
  | nil =>
    obtain ⟨c, b, now, who, pk, hn, rfl⟩ := hs
    obtain ⟨_, _, _, _, _, hx⟩ := new_ok.mp hn
    cases hx
    simp only [krun]
    refine ⟨⟨?_, fun p h => by cases h⟩, .inr ⟨fun _ => rfl, pk, _, [], rfl, founding_eq _ _, by simp⟩⟩
    have h1 : hasKey ⟨⟨⟨insertAll .empty ms, n, ⟨0, .empty, .empty, .empty⟩, 12⟩, now, []⟩, .empty,
        [(pk, ⟨cfg.self, ms.flatMap (memberKeyAction cfg.self)⟩)], []⟩ k = false := rfl
    rw [h1]
    simp only [queueOps, List.flatMap_cons, List.flatMap_nil, List.append_nil, founding_eq]
    rw [keyOps_founding hnd]
    have h2 : isMember ⟨insertAll .empty ms, n, ⟨0, .empty, .empty, .empty⟩, 12⟩ k =
        decide (k ∈ memberKeys ms) := by
      unfold isMember
      rw [decide_eq_decide, mem_memberKeys]
      show Member.key k ∈ (insertAll .empty ms).keys ↔ _
      rw [mem_insertAll]
      exact ⟨fun h => h.resolve_left (by intro h; cases h), .inr⟩
    rw [h2]
    by_cases hk : k ∈ memberKeys ms
    · simp [hk, settle]
    · simp [hk, settle]
  | append_singleton l ev ih =>
    rw [krun_snoc] at hpre ⊢
    obtain ⟨h1, h2⟩ := ih ((prefix_step _ _).trans hpre)
      (fun i hosts h => hfifo i hosts (List.mem_append_left _ h))
      (fun pk acts hosts h => hsign pk acts hosts (List.mem_append_left _ h))
    exact sync_step hs.started hnd (log_run hs l) ht hpre
      (fun i hosts h => hfifo i hosts (by rw [h]; simp))
      (fun pk acts hosts h => hsign pk acts hosts (by rw [h]; simp)) h1 h2

end Verif.Multisig2
