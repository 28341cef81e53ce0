import Verif.Multisig2.Props5

/-!
# Multisig2: as long as no request to the account itself is executed (helper lemmas for C117)

Then members and threshold are those of `new`, and the access keys are at most those of `new`.
-/

namespace Verif.Multisig2

open Verif

/-- No request to the account itself was executed so far. -/
def SelfFree (self : AccountId) (w : World) : Prop := ∀ x ∈ w.issued, x.2.receiver ≠ self

theorem issued_mono_step (self : AccountId) (w : World) (ev : Ev) : w.issued ⊆ (step self w ev).issued := by
  cases ev with
  | tick dt => exact fun _ h => h
  | call who pk att host c =>
    simp only [step]
    split
    · exact subset_logged
    · exact fun _ h => h

theorem SelfFree.before {self : AccountId} {w : World} {ev : Ev} (h : SelfFree self (step self w ev)) :
    SelfFree self w := fun x hx => h x (issued_mono_step self w ev hx)

theorem SelfFree.prefix {self : AccountId} {w : World} {l1 l2 : List Ev}
    (h : SelfFree self (run self w (l1 ++ l2))) : SelfFree self (run self w l1) := by
  induction l2 using List.reverseRecOn with
  | nil => rwa [List.append_nil] at h
  | append_singleton l ev ih =>
    rw [← List.append_assoc, run_snoc] at h
    exact ih h.before

theorem SelfFree.kprefix {cfg : KCfg} {kw : KWorld} {l1 l2 : List KEv}
    (h : SelfFree cfg.self (krun cfg kw (l1 ++ l2)).w) : SelfFree cfg.self (krun cfg kw l1).w :=
  fun x hx => h x (issued_prefix hx)

/-- Members, threshold and limit are those of `new`. -/
theorem founders_config {self : AccountId} {ms : List Member} {n : Nat} {w0 : World}
    (hs : Started self ms n w0) (evs : List Ev) (hf : SelfFree self (run self w0 evs)) :
    (∀ m, m ∈ getMembers (run self w0 evs).c ↔ m ∈ ms) ∧
    getNumConfirmations (run self w0 evs).c = n ∧ (run self w0 evs).c.limit = 12 := by
  induction evs using List.reverseRecOn with
  | nil =>
    obtain ⟨c, b, now, who, pk, hn, rfl⟩ := hs
    obtain ⟨h1, h2, h3, _⟩ := (C80_new_exact _ _ _ _).2 _ _ hn
    exact ⟨h1, h2, h3⟩
  | append_singleton l ev ih =>
    rw [run_snoc] at hf ⊢
    obtain ⟨h1, h2, h3⟩ := ih hf.before
    by_contra hne
    have hch : (step self (run self w0 l) ev).c.numConfirmations ≠ (run self w0 l).c.numConfirmations ∨
        (step self (run self w0 l) ev).c.limit ≠ (run self w0 l).c.limit ∨
        ∃ x, ¬ (x ∈ getMembers (step self (run self w0 l) ev).c ↔ x ∈ getMembers (run self w0 l).c) := by
      by_contra hno
      push Not at hno
      obtain ⟨g1, g2, g3⟩ := hno
      refine hne ⟨fun m => (g3 m).trans (h1 m), ?_, g2.trans h3⟩
      exact g1.trans h2
    obtain ⟨id, m, q, b, ⟨a1, e1, a2, g1, g2⟩, g3, g4, _⟩ := C50_configuration_changes hs l ev hch
    have hmem : (id, b) ∈ (run self w0 (l ++ [ev])).issued := by
      rw [run_snoc, g3]; exact List.mem_cons_self
    obtain ⟨m', q', ⟨b1, f1, b2, k1, k2⟩, k3, _⟩ := C42_executed_as_requested hs (l ++ [ev]) hmem
    obtain ⟨rfl, rfl, rfl⟩ := adds_unique (g1.symm.trans k1) g2 k2
    obtain ⟨rfl, rfl⟩ := adds_same g2 k2
    refine hf (id, b) ?_ (k3.trans g4)
    rw [g3]; exact List.mem_cons_self

/-- What is executed while no request to the account itself was: the founders decided. -/
theorem founders_decide {self : AccountId} {ms : List Member} {n : Nat} {w0 : World}
    (hs : Started self ms n w0) (evs : List Ev) (ev : Ev) (hf : SelfFree self (run self w0 evs))
    {id : Nat} {b : Batch}
    (hi : (step self (run self w0 evs) ev).issued = (id, b) :: (run self w0 evs).issued) :
    ∃ l1 e1 l2 m0 q, evs ++ [ev] = l1 ++ e1 :: l2 ∧ Adds self (run self w0 l1) e1 m0 id q ∧
      m0 ∈ ms ∧ b = q.toBatch self ∧
      ∃ conf : List Member, conf.Nodup ∧ n ≤ conf.length ∧
        ∀ m ∈ conf, m ∈ ms ∧ Sometime self (run self w0 l1) (e1 :: l2)
          (fun w e => Confirms self w e m id) := by
  obtain ⟨l1, e1, l2, m0, q, h1, h2, h3, conf, h4, h5, h6⟩ := C46_enough_distinct_members hs evs ev hi
  have hmem : (id, b) ∈ (run self w0 (evs ++ [ev])).issued := by
    rw [run_snoc, hi]; exact List.mem_cons_self
  obtain ⟨m', q', ⟨b1, f1, b2, k1, k2⟩, k3, k4⟩ := C42_executed_as_requested hs (evs ++ [ev]) hmem
  obtain ⟨rfl, rfl, rfl⟩ := adds_unique (h1.symm.trans k1) h2 k2
  obtain ⟨rfl, rfl⟩ := adds_same h2 k2
  have cfg : ∀ p r, evs ++ [ev] = p ++ r → r ≠ [] → SelfFree self (run self w0 p) := by
    intro p r hp hr
    obtain ⟨r', x, rfl⟩ := List.eq_nil_or_concat r |>.resolve_left hr
    rw [List.concat_eq_append, ← List.append_assoc] at hp
    obtain ⟨he, _⟩ := List.append_inj' hp rfl
    rw [he] at hf
    exact hf.prefix
  refine ⟨l1, e1, l2, m0, q, h1, h2, ?_, ?_, conf, h4, ?_, ?_⟩
  · exact ((founders_config hs l1 (cfg l1 _ h1 (by simp))).1 m0).mp h3
  · cases b; simp only [Request.toBatch]; rw [← k4]; exact congrArg (fun r => Batch.mk r _) k3
  · rw [← (founders_config hs evs hf).2.1]; exact h5
  · intro m hm
    obtain ⟨p, e, r, g1, g2, g3⟩ := h6 m hm
    refine ⟨?_, p, e, r, g1, g2⟩
    rw [← run_append] at g3
    refine ((founders_config hs (l1 ++ p) (cfg _ (e :: r) ?_ (by simp))).1 m).mp g3
    rw [h1, g1, List.append_assoc]

/-- The access keys are at most those that `new` adds. -/
theorem founders_keys {cfg : KCfg} {ms : List Member} {n : Nat} {kw0 : KWorld}
    (hs : KStarted cfg ms n .empty kw0) (evs : List KEv) (hf : SelfFree cfg.self (krun cfg kw0 evs).w)
    {k : PublicKey} {p : Perm} (hk : (krun cfg kw0 evs).keys.get k = some p) :
    .key k ∈ ms ∧ p = .fn cfg.self multisigMethodNames := by
  induction hl : evs.length using Nat.strong_induction_on generalizing evs k p with
  | _ len ih =>
    rcases (source_run hs evs).2 k p hk with h | ⟨h1, h2⟩ | ⟨id, b, a, h1, h2, h3, h4⟩ |
      ⟨l1, k', acts, hosts, l2, a, h1, h2, h3, h4⟩
    · cases h
    · exact ⟨h1, h2⟩
    · exact absurd h2 (hf _ h1)
    · subst h1
      have := (ih l1.length (by rw [← hl]; simp) l1 hf.kprefix h2 rfl).2
      cases this

/-- Whoever is not a founder has no effect. -/
theorem strangers {cfg : KCfg} {ms : List Member} {n : Nat} {kw0 : KWorld}
    (hs : KStarted cfg ms n .empty kw0) (evs : List KEv) (hf : SelfFree cfg.self (krun cfg kw0 evs).w) :
    (∀ pk acts hosts, .key pk ∉ ms →
      kstep cfg (krun cfg kw0 evs) (.sign pk acts hosts) = krun cfg kw0 evs) ∧
    ∀ who pk att host c, .account who ∉ ms →
      kstep cfg (krun cfg kw0 evs) (.foreign who pk att host c) = krun cfg kw0 evs := by
  constructor
  · intro pk acts hosts hpk
    simp only [kstep]
    cases hk : (krun cfg kw0 evs).keys.get pk with
    | none => rfl
    | some p => exact absurd (founders_keys hs evs hf hk).1 hpk
  · intro who pk att host c hwho
    simp only [kstep]
    by_cases hw : who = cfg.self
    · rw [if_pos hw]
    · rw [if_neg hw]
      have hlog := log_run hs evs
      have hm : actor cfg.self who pk ∉ getMembers (krun cfg kw0 evs).w.c := by
        simp only [actor, if_neg (Ne.symm hw)]
        rw [hlog] at hf ⊢
        rw [(founders_config hs.started _ hf).1]
        exact hwho
      have hx := (C46_only_members_act (krun cfg kw0 evs).w who pk att host c hm).1
      unfold callK
      cases he : exec (mkEnv cfg.self (krun cfg kw0 evs).w who pk att host) (krun cfg kw0 evs).w.c c with
      | error m => rfl
      | ok r => exact absurd he (hx r)

/-! ## The founding batch -/

theorem founding_batch {cfg : KCfg} {pk : PublicKey} {hosts : List Bool} (ms : List Member) (kw : KWorld)
    (hnd : (memberKeys ms).Nodup) (hfree : ∀ k, .key k ∈ ms → kw.keys.get k = none) :
    ∃ K, runBatch cfg pk kw hosts (ms.flatMap (memberKeyAction cfg.self)) = some { kw with keys := K } ∧
      (∀ k, .key k ∈ ms → K.get k = some (.fn cfg.self multisigMethodNames)) ∧
      ∀ k, .key k ∉ ms → K.get k = kw.keys.get k := by
  induction ms generalizing kw with
  | nil => exact ⟨kw.keys, rfl, fun k h => (by cases h), fun _ _ => rfl⟩
  | cons m t ih =>
    cases m with
    | account a =>
      obtain ⟨K, h1, h2, h3⟩ := ih kw hnd (fun k hk => hfree k (List.mem_cons_of_mem _ hk))
      refine ⟨K, ?_, ?_, ?_⟩
      · simpa [memberKeyAction] using h1
      · intro k hk
        rcases List.mem_cons.mp hk with hk | hk
        · cases hk
        · exact h2 k hk
      · intro k hk
        exact h3 k (fun h => hk (List.mem_cons_of_mem _ h))
    | key k0 =>
      have hnd' : k0 ∉ memberKeys t ∧ (memberKeys t).Nodup := List.nodup_cons.mp hnd
      have hk0 : Member.key k0 ∉ t := by
        intro h
        refine hnd'.1 ?_
        unfold memberKeys
        exact List.mem_filterMap.mpr ⟨_, h, rfl⟩
      obtain ⟨K, h1, h2, h3⟩ := ih { kw with keys := kw.keys.insert k0 (.fn cfg.self multisigMethodNames) }
        hnd'.2 (fun k hk => by
          simp only [UMap.get_insert]
          split
          · rename_i he; subst he; exact absurd hk hk0
          · exact hfree k (List.mem_cons_of_mem _ hk))
      refine ⟨K, ?_, ?_, ?_⟩
      · have := hfree k0 List.mem_cons_self
        simp only [List.flatMap_cons, memberKeyAction, List.cons_append, List.nil_append, runBatch, this,
          if_true]
        exact h1
      · intro k hk
        by_cases he : k0 = k
        · subst he
          rw [h3 k0 hk0]
          exact UMap.get_insert_self ..
        · rcases List.mem_cons.mp hk with hk | hk
          · cases hk; exact absurd rfl he
          · exact h2 k hk
      · intro k hk
        rw [h3 k (fun h => hk (List.mem_cons_of_mem _ h))]
        refine UMap.get_insert_ne ?_ ..
        rintro rfl
        exact hk List.mem_cons_self

/-- Either the founding batch is under way and nothing else, or it has arrived and nothing is under way. -/
theorem founding_run {cfg : KCfg} {ms : List Member} {n : Nat} {kw0 : KWorld}
    (hs : KStarted cfg ms n .empty kw0) (hnd : (memberKeys ms).Nodup) (evs : List KEv)
    (hf : SelfFree cfg.self (krun cfg kw0 evs).w) :
    (∃ pk b, (krun cfg kw0 evs).queue = [(pk, b)] ∧ b.actions = ms.flatMap (memberKeyAction cfg.self) ∧
      ∀ k, (krun cfg kw0 evs).keys.get k = none) ∨
    ((krun cfg kw0 evs).queue = [] ∧
      ∀ k, .key k ∈ ms → (krun cfg kw0 evs).keys.get k = some (.fn cfg.self multisigMethodNames)) := by
  induction evs using List.reverseRecOn with
  | nil =>
    obtain ⟨c, b, now, who, pk, hn, rfl⟩ := hs
    obtain ⟨_, _, _, _, _, hx⟩ := new_ok.mp hn
    cases hx
    exact .inl ⟨pk, _, rfl, rfl, fun _ => rfl⟩
  | append_singleton l ev ih =>
    have ih := ih hf.kprefix
    have hkeys := fun {k p} => founders_keys hs l hf.kprefix (k := k) (p := p)
    rw [krun_snoc] at hf ⊢
    generalize hkw : krun cfg kw0 l = kw at *
    have call : ∀ who pk d host c kw', callK cfg kw who pk d host c = some kw' →
        SelfFree cfg.self kw'.w → kw'.queue = kw.queue ∧ kw'.keys = kw.keys := by
      intro who pk d host c kw' hc hsf
      obtain ⟨r, _, rfl, _⟩ := callK_some hc
      refine ⟨?_, rfl⟩
      simp only [enqueue]
      cases hb : r.batch with
      | none => rfl
      | some b =>
        have := hsf (r.id, b) (by simp only [logged, hb]; exact List.mem_cons_self)
        simp only at this
        simp only [if_neg this]
    cases ev with
    | tick dt => exact ih
    | foreign who pk att host c =>
      simp only [kstep] at hf ⊢
      split at hf
      · rename_i hw; rw [if_pos hw]; exact ih
      · rename_i hw
        rw [if_neg hw]
        cases hc : callK cfg kw who pk att host c with
        | none => exact ih
        | some kw' =>
          rw [hc, Option.getD_some] at hf
          obtain ⟨h1, h2⟩ := call _ _ _ _ _ _ hc hf
          simp only [Option.getD_some, h1, h2]
          exact ih
    | sign pk acts hosts =>
      simp only [kstep] at hf ⊢
      cases hk : kw.keys.get pk with
      | none => exact ih
      | some p =>
        rw [hk] at hf
        obtain ⟨_, rfl⟩ := hkeys hk
        simp only at hf ⊢
        split at hf
        · rename_i hp
          rw [if_pos hp]
          cases hb : runBatch cfg pk kw hosts acts with
          | none => exact ih
          | some kw' =>
            rw [hb, Option.getD_some] at hf
            rw [Option.getD_some]
            match acts, hp, hb with
            | [.functionCall m a d g], hp, hb =>
              simp only [runBatch] at hb
              split at hb
              · cases hb
              · split at hb
                · cases hb
                · rename_i c hdec kw1 hc
                  cases hb
                  obtain ⟨h1, h2⟩ := call _ _ _ _ _ _ hc hf
                  rw [h1, h2]
                  exact ih
            | [], hp, _ => simp [permAllows] at hp
            | [.transfer _], hp, _ => simp [permAllows] at hp
            | [.createAccount], hp, _ => simp [permAllows] at hp
            | [.deployContract _], hp, _ => simp [permAllows] at hp
            | [.addAccessKey _ _ _ _], hp, _ => simp [permAllows] at hp
            | [.addFullAccessKey _], hp, _ => simp [permAllows] at hp
            | [.deleteKey _], hp, _ => simp [permAllows] at hp
            | _ :: _ :: _, hp, _ => simp [permAllows] at hp
        · rename_i hp
          rw [if_neg hp]; exact ih
    | deliver i hosts =>
      simp only [kstep] at hf ⊢
      rcases ih with ⟨pk, b, h1, h2, h3⟩ | ⟨h1, h2⟩
      · cases i with
        | succ i =>
          have : kw.queue[i + 1]? = none := by rw [h1]; rfl
          rw [this]
          exact .inl ⟨pk, b, h1, h2, h3⟩
        | zero =>
          have : kw.queue[0]? = some (pk, b) := by rw [h1]; rfl
          rw [this]
          simp only
          obtain ⟨K, g1, g2, g3⟩ := founding_batch (cfg := cfg) (pk := pk) (hosts := hosts) ms
            { kw with queue := kw.queue.eraseIdx 0 } hnd (fun k _ => h3 k)
          rw [h2, g1, Option.getD_some]
          right
          refine ⟨by simp [h1], g2⟩
      · have : kw.queue[i]? = none := by rw [h1]; rfl
        rw [this]
        exact .inr ⟨h1, h2⟩

/-! ## Paying out -/

/-- As many members as confirmations are missing confirm a request: it is executed. -/
theorem confirm_out {cfg : KCfg} {id : Nat} {st : Stored Member Request} {f : String} {a : Bytes}
    {g : Nat} (hd : cfg.decode f a = some (.confirm id))
    (ml : List Member) (kw : KWorld) (cs : List String) (hex : Executable cfg.self kw.w.c st.request)
    (hinv : MInv kw.w.c) (hg : kw.w.c.book.requests.get id = some st)
    (hc : kw.w.c.book.confs.get id = some cs) (hnd : ml.Nodup) (hne : ml ≠ [])
    (hml : ∀ m ∈ ml, m ∈ getMembers kw.w.c ∧ CanCall cfg kw f m ∧ m.str ∉ cs)
    (hnum : kw.w.c.numConfirmations = cs.length + ml.length) :
    (krun cfg kw (ml.map (memberTx f a g (.confirm id)))).w.issued =
      (id, st.request.toBatch cfg.self) :: kw.w.issued := by
  induction ml generalizing kw cs with
  | nil => exact absurd rfl hne
  | cons m t ih =>
    have hlen := hinv.len id cs hc
    have hmod : cs.length % two32 = cs.length := Nat.mod_eq_of_lt (by omega)
    obtain ⟨h1, h2, h3⟩ := hml m List.mem_cons_self
    obtain ⟨who, pk, hact, hstep⟩ := memberTx_step (g := g) h2 hd
    have hcur : currentMember (mkEnv cfg.self kw.w who pk 0 true) kw.w.c = some m :=
      currentMember_ok.mpr ⟨hact, h1⟩
    simp only [List.map_cons, krun]
    simp only [List.length_cons] at hnum
    by_cases ht : t = []
    · subst ht
      simp only [List.length_nil] at hnum
      have hr : ExecRel (mkEnv cfg.self kw.w who pk 0 true) kw.w.c (.confirm id) ⟨_, id, _⟩ :=
        .confirm id _ _ rfl (.executed m st cs hcur hg hc h3 (by rw [hmod]; exact hlen)
          (by rw [hmod]; omega)
          ((executable_congr (s := { kw.w.c with book := kw.w.c.book.remove Member.str id st })
            (s' := kw.w.c) rfl rfl).mpr hex) rfl)
      rw [hstep _ (exec_ok.mpr hr)]
      rfl
    · have hpos : 0 < t.length := List.length_pos_iff.mpr ht
      have hr : ExecRel (mkEnv cfg.self kw.w who pk 0 true) kw.w.c (.confirm id) ⟨_, id, _⟩ :=
        .confirm id _ _ rfl (.stored m st cs hcur hg hc h3 (by rw [hmod]; exact hlen)
          (by rw [hmod]; omega))
      have hinv' := minv_step (self := cfg.self) (.call who pk 0 true (.confirm id)) hinv
      rw [hstep _ (exec_ok.mpr hr)]
      simp only [step, exec_ok.mpr hr] at hinv'
      simp only [enqueue, logged]
      exact ih ⟨{ kw.w with c := { kw.w.c with book := kw.w.c.book.confirm id cs m.str } },
        kw.keys, kw.queue, kw.log ++ [.call who pk 0 true (.confirm id)]⟩ (cs ++ [m.str])
        ((executable_congr (s := kw.w.c)
          (s' := { kw.w.c with book := kw.w.c.book.confirm id cs m.str }) rfl rfl).mp hex)
        hinv' hg (by simp [Book.confirm]) (List.nodup_cons.mp hnd).2 ht (fun m' hm' => by
          obtain ⟨g1, g2, g3⟩ := hml m' (List.mem_cons_of_mem _ hm')
          refine ⟨g1, g2, fun hmem => ?_⟩
          rcases List.mem_append.mp hmem with hmem | hmem
          · exact g3 hmem
          · have := str_inj (List.mem_singleton.mp hmem)
            subst this
            exact (List.nodup_cons.mp hnd).1 hm') (by
          show kw.w.c.numConfirmations = (cs ++ [m.str]).length + t.length
          simp only [List.length_append, List.length_cons, List.length_nil]
          omega)

/-- `num_confirmations` members propose and confirm a request: it is executed. -/
theorem propose_out {cfg : KCfg} {ms : List Member} {n : Nat} {kw : KWorld}
    (h : Reachable cfg.self ms n kw.w) {q : Request}
    (hex : Executable cfg.self kw.w.c q) (hrange : q.actions.all Action.inRange = true)
    {f1 f2 : String} {a1 a2 : Bytes} {g : Nat} (hd1 : cfg.decode f1 a1 = some (.addRequest q))
    (hd2 : cfg.decode f2 a2 = some (.confirm (getRequestNonce kw.w.c)))
    {m0 : Member} (hm0 : m0 ∈ getMembers kw.w.c) (hm0' : CanCall cfg kw f1 m0)
    (hroom : numPending kw.w.c m0 < kw.w.c.limit)
    (hids : getRequestNonce kw.w.c + 1 < two32) {ml : List Member} (hnd : ml.Nodup) (hne : ml ≠ [])
    (hml : ∀ m ∈ ml, m ∈ getMembers kw.w.c ∧ CanCall cfg kw f2 m)
    (hnum : getNumConfirmations kw.w.c = ml.length) :
    (krun cfg kw (memberTx f1 a1 g (.addRequest q) m0 ::
        ml.map (memberTx f2 a2 g (.confirm (getRequestNonce kw.w.c))))).w.issued =
      (getRequestNonce kw.w.c, q.toBatch cfg.self) :: kw.w.issued := by
  obtain ⟨who, pk, hact, hstep⟩ := memberTx_step (g := g) hm0' hd1
  obtain ⟨r, hx⟩ := (C48_add_request_iff h who pk 0 true q).mpr
    ⟨rfl, by rw [hact]; exact hm0, hrange, by rw [hact]; exact hroom, hids⟩
  have hr' : Reachable cfg.self ms n (step cfg.self kw.w (.call who pk 0 true (.addRequest q))) := by
    obtain ⟨w0, evs, h1, h2⟩ := h
    exact ⟨w0, evs ++ [_], h1, by rw [run_snoc, ← h2]⟩
  simp only [krun]
  rw [hstep r hx]
  have hst : step cfg.self kw.w (.call who pk 0 true (.addRequest q)) =
      { kw.w with c := r.c, issued := logged r kw.w.issued } := by simp only [step, hx]
  rw [hst] at hr'
  cases exec_ok.mp hx with
  | add m q h1 h2 =>
    exact confirm_out (cfg := cfg) (id := getRequestNonce kw.w.c)
      (st := ⟨q, m, kw.w.now⟩) (g := g) hd2 ml
      ⟨{ kw.w with c := added (mkEnv cfg.self kw.w who pk 0 true) kw.w.c m q }, kw.keys, kw.queue,
        kw.log ++ [.call who pk 0 true (.addRequest q)]⟩ []
      ((executable_congr (s := kw.w.c)
        (s' := added (mkEnv cfg.self kw.w who pk 0 true) kw.w.c m q) rfl rfl).mp hex)
      (reachable_minv hr')
      (by simp [getRequestNonce, added, Book.add, mkEnv])
      (by simp [getRequestNonce, added, Book.add]) hnd hne
      (fun m hm => ⟨(hml m hm).1, (hml m hm).2, by simp⟩)
      (by rw [List.length_nil, Nat.zero_add]; exact hnum)

end Verif.Multisig2
