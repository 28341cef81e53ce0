import Verif.Multisig2.Props2
import Verif.Multisig2.Props4

/-!
# Multisig2: the members change the members and the access keys (C106)
-/

namespace Verif.Multisig2

open Verif

/-- The member `m` makes the call `c`: a key signs a transaction that calls the method `f` with arguments
`a`, an account calls the contract. -/
def memberTx (f : String) (a : Bytes) (g : Nat) (c : Call) : Member → KEv
  | .key k => .sign k [.functionCall f a 0 g] [true]
  | .account who => .foreign who "" 0 true c

/-- The member can make calls of `f`: a key is an access key of the account with which its holder may call
`f`; an account is another account. -/
def CanCall (cfg : KCfg) (kw : KWorld) (f : String) : Member → Prop
  | .key k => kw.keys.get k = some .full ∨
      ∃ ms, kw.keys.get k = some (.fn cfg.self ms) ∧ (ms = "" ∨ f.toList ∈ splitCommas ms.toList)
  | .account who => who ≠ cfg.self

theorem memberTx_step {cfg : KCfg} {kw : KWorld} {m : Member} {f : String} {a : Bytes} {g : Nat}
    {c : Call} (hm : CanCall cfg kw f m) (hd : cfg.decode f a = some c) :
    ∃ who pk, actor cfg.self who pk = m ∧
      ∀ r, exec (mkEnv cfg.self kw.w who pk 0 true) kw.w.c c = .ok r →
        kstep cfg kw (memberTx f a g c m) =
          { kw with w := { kw.w with c := r.c, issued := logged r kw.w.issued }
                    queue := enqueue cfg.self pk r kw.queue
                    log := kw.log ++ [.call who pk 0 true c] } := by
  cases m with
  | key k =>
    refine ⟨cfg.self, k, by simp [actor], fun r hx => ?_⟩
    have hrun : runBatch cfg k kw [true] [.functionCall f a 0 g] =
        some { kw with w := { kw.w with c := r.c, issued := logged r kw.w.issued }
                       queue := enqueue cfg.self k r kw.queue
                       log := kw.log ++ [.call cfg.self k 0 true c] } := by
      simp only [runBatch, hd, List.headD_cons, callK, hx, step]
    rcases hm with h | ⟨ms, h, hms⟩
    · simp only [memberTx, kstep, h, permAllows, if_true, hrun, Option.getD_some]
    · have hp : permAllows cfg.self (.fn cfg.self ms) [.functionCall f a 0 g] = true := by
        rcases hms with rfl | hms
        · simp [permAllows, Perm.permits]
        · simp [permAllows, Perm.permits, hms]
      simp only [memberTx, kstep, h, hp, if_true, hrun, Option.getD_some]
  | account who =>
    have hw : who ≠ cfg.self := hm
    refine ⟨who, "", by simp [actor, Ne.symm hw], fun r hx => ?_⟩
    simp only [memberTx, kstep, hw, if_false, callK, hx, Option.getD_some, step]

/-- As many members as confirmations are missing confirm a request to the account itself: it is executed and
its batch is under way. -/
theorem confirm_txs {cfg : KCfg} {id : Nat} {st : Stored Member Request} {f : String} {a : Bytes}
    {g : Nat} (hd : cfg.decode f a = some (.confirm id)) (hself : st.request.receiver = cfg.self)
    (ml : List Member) (kw : KWorld) (cs : List String) (hex : Executable cfg.self kw.w.c st.request)
    (hinv : MInv kw.w.c) (hg : kw.w.c.book.requests.get id = some st)
    (hc : kw.w.c.book.confs.get id = some cs) (hnd : ml.Nodup) (hne : ml ≠ [])
    (hml : ∀ m ∈ ml, m ∈ getMembers kw.w.c ∧ CanCall cfg kw f m ∧ m.str ∉ cs)
    (hnum : kw.w.c.numConfirmations = cs.length + ml.length) :
    ∃ book k log, krun cfg kw (ml.map (memberTx f a g (.confirm id))) =
      ⟨⟨applyActions { kw.w.c with book := book } st.request.actions, kw.w.now,
          (id, st.request.toBatch cfg.self) :: kw.w.issued⟩, kw.keys,
        kw.queue ++ [(k, st.request.toBatch cfg.self)], log⟩ := by
  induction ml generalizing kw cs with
  | nil => exact absurd rfl hne
  | cons m t ih =>
    have hlen := hinv.len id cs hc
    have hmod : cs.length % two32 = cs.length := Nat.mod_eq_of_lt (by omega)
    obtain ⟨h1, h2, h3⟩ := hml m List.mem_cons_self
    obtain ⟨who, pk, hact, hstep⟩ := memberTx_step (g := g) h2 hd
    have hcur : currentMember (mkEnv cfg.self kw.w who pk 0 true) kw.w.c = some m :=
      currentMember_ok.mpr ⟨hact, h1⟩
    simp only [List.map_cons, krun]
    simp only [List.length_cons] at hnum
    by_cases ht : t = []
    · subst ht
      simp only [List.length_nil] at hnum
      have hr : ExecRel (mkEnv cfg.self kw.w who pk 0 true) kw.w.c (.confirm id) ⟨_, id, _⟩ :=
        .confirm id _ _ rfl (.executed m st cs hcur hg hc h3 (by rw [hmod]; exact hlen)
          (by rw [hmod]; omega)
          ((executable_congr (s := { kw.w.c with book := kw.w.c.book.remove Member.str id st })
            (s' := kw.w.c) rfl rfl).mpr hex) rfl)
      refine ⟨kw.w.c.book.remove Member.str id st, pk, kw.log ++ [.call who pk 0 true (.confirm id)], ?_⟩
      rw [hstep _ (exec_ok.mpr hr)]
      have hb : (st.request.toBatch cfg.self).receiver = cfg.self := hself
      simp only [krun, List.map_nil, enqueue, logged, mkEnv, hb, if_true]
    · have hpos : 0 < t.length := List.length_pos_iff.mpr ht
      have hr : ExecRel (mkEnv cfg.self kw.w who pk 0 true) kw.w.c (.confirm id) ⟨_, id, _⟩ :=
        .confirm id _ _ rfl (.stored m st cs hcur hg hc h3 (by rw [hmod]; exact hlen)
          (by rw [hmod]; omega))
      have hinv' := minv_step (self := cfg.self) (.call who pk 0 true (.confirm id)) hinv
      rw [hstep _ (exec_ok.mpr hr)]
      simp only [step, exec_ok.mpr hr] at hinv'
      simp only [enqueue, logged]
      obtain ⟨book, k, log, g1⟩ := ih ⟨{ kw.w with c := { kw.w.c with book := kw.w.c.book.confirm id cs m.str } },
        kw.keys, kw.queue, kw.log ++ [.call who pk 0 true (.confirm id)]⟩ (cs ++ [m.str])
        ((executable_congr (s := kw.w.c)
          (s' := { kw.w.c with book := kw.w.c.book.confirm id cs m.str }) rfl rfl).mp hex)
        hinv' hg (by simp [Book.confirm]) (List.nodup_cons.mp hnd).2 ht (fun m' hm' => by
          obtain ⟨g1, g2, g3⟩ := hml m' (List.mem_cons_of_mem _ hm')
          refine ⟨g1, g2, fun hmem => ?_⟩
          rcases List.mem_append.mp hmem with hmem | hmem
          · exact g3 hmem
          · have := str_inj (List.mem_singleton.mp hmem)
            subst this
            exact (List.nodup_cons.mp hnd).1 hm') (by
          show kw.w.c.numConfirmations = (cs ++ [m.str]).length + t.length
          simp only [List.length_append, List.length_cons, List.length_nil]
          omega)
      exact ⟨book, k, log, g1⟩

/-- `num_confirmations` members propose and confirm a request to the account itself. -/
theorem propose_txs {cfg : KCfg} {ms : List Member} {n : Nat} {kw : KWorld}
    (h : Reachable cfg.self ms n kw.w) {q : Request} (hq : q.receiver = cfg.self)
    (hex : Executable cfg.self kw.w.c q) (hrange : q.actions.all Action.inRange = true)
    {f1 f2 : String} {a1 a2 : Bytes} {g : Nat} (hd1 : cfg.decode f1 a1 = some (.addRequest q))
    (hd2 : cfg.decode f2 a2 = some (.confirm (getRequestNonce kw.w.c)))
    {m0 : Member} (hm0 : m0 ∈ getMembers kw.w.c) (hm0' : CanCall cfg kw f1 m0)
    (hroom : numPending kw.w.c m0 < kw.w.c.limit)
    (hids : getRequestNonce kw.w.c + 1 < two32) {ml : List Member} (hnd : ml.Nodup) (hne : ml ≠ [])
    (hml : ∀ m ∈ ml, m ∈ getMembers kw.w.c ∧ CanCall cfg kw f2 m)
    (hnum : getNumConfirmations kw.w.c = ml.length) :
    ∃ book k log now issued, krun cfg kw (memberTx f1 a1 g (.addRequest q) m0 ::
        ml.map (memberTx f2 a2 g (.confirm (getRequestNonce kw.w.c)))) =
      ⟨⟨applyActions { kw.w.c with book := book } q.actions, now, issued⟩, kw.keys,
        kw.queue ++ [(k, q.toBatch cfg.self)], log⟩ := by
  obtain ⟨who, pk, hact, hstep⟩ := memberTx_step (g := g) hm0' hd1
  obtain ⟨r, hx⟩ := (C48_add_request_iff h who pk 0 true q).mpr
    ⟨rfl, by rw [hact]; exact hm0, hrange, by rw [hact]; exact hroom, hids⟩
  have hr' : Reachable cfg.self ms n (step cfg.self kw.w (.call who pk 0 true (.addRequest q))) := by
    obtain ⟨w0, evs, h1, h2⟩ := h
    exact ⟨w0, evs ++ [_], h1, by rw [run_snoc, ← h2]⟩
  simp only [krun]
  rw [hstep r hx]
  have hst : step cfg.self kw.w (.call who pk 0 true (.addRequest q)) =
      { kw.w with c := r.c, issued := logged r kw.w.issued } := by simp only [step, hx]
  rw [hst] at hr'
  cases exec_ok.mp hx with
  | add m q h1 h2 =>
    obtain ⟨book, k, log, g1⟩ := confirm_txs (cfg := cfg) (id := getRequestNonce kw.w.c)
      (st := ⟨q, m, kw.w.now⟩) (g := g) hd2 hq ml
      ⟨{ kw.w with c := added (mkEnv cfg.self kw.w who pk 0 true) kw.w.c m q }, kw.keys, kw.queue,
        kw.log ++ [.call who pk 0 true (.addRequest q)]⟩ []
      ((executable_congr (s := kw.w.c)
        (s' := added (mkEnv cfg.self kw.w who pk 0 true) kw.w.c m q) rfl rfl).mp hex)
      (reachable_minv hr')
      (by simp [getRequestNonce, added, Book.add, mkEnv])
      (by simp [getRequestNonce, added, Book.add]) hnd hne
      (fun m hm => ⟨(hml m hm).1, (hml m hm).2, by simp⟩)
      (by rw [List.length_nil, Nat.zero_add]; exact hnum)
    exact ⟨book, k, log, _, _, g1⟩

theorem erase_last {α : Type} (l : List α) (x : α) : (l ++ [x]).eraseIdx l.length = l := by
  rw [List.eraseIdx_append_of_length_le (Nat.le_refl _)]
  simp

/-- **C106, a new member.** `num_confirmations` distinct members can take in a new member: one of them
proposes it, all of them confirm, and the batch arrives. Then the members are the former ones and the
newcomer. If the newcomer is a key, it is an access key of the account for the methods of the contract;
every other key is as before. Whoever proposes needs room for one more request. -/
theorem C106_add_member {cfg : KCfg} {ms : List Member} {n : Nat} {kw : KWorld}
    (h : Reachable cfg.self ms n kw.w) {new : Member}
    (hnew : ∀ k, new = .key k → kw.keys.get k = none)
    {f1 f2 : String} {a1 a2 : Bytes} {g : Nat}
    (hd1 : cfg.decode f1 a1 = some (.addRequest ⟨cfg.self, [.addMember new]⟩))
    (hd2 : cfg.decode f2 a2 = some (.confirm (getRequestNonce kw.w.c)))
    {m0 : Member} (hm0 : m0 ∈ getMembers kw.w.c) (hm0' : CanCall cfg kw f1 m0)
    (hroom : numPending kw.w.c m0 < kw.w.c.limit)
    (hids : getRequestNonce kw.w.c + 1 < two32) {ml : List Member} (hnd : ml.Nodup) (hne : ml ≠ [])
    (hml : ∀ m ∈ ml, m ∈ getMembers kw.w.c ∧ CanCall cfg kw f2 m)
    (hnum : getNumConfirmations kw.w.c = ml.length) :
    let kw' := krun cfg kw ((memberTx f1 a1 g (.addRequest ⟨cfg.self, [.addMember new]⟩) m0 ::
      ml.map (memberTx f2 a2 g (.confirm (getRequestNonce kw.w.c)))) ++ [.deliver kw.queue.length []])
    (∀ m, m ∈ getMembers kw'.w.c ↔ m ∈ getMembers kw.w.c ∨ m = new) ∧
    getNumConfirmations kw'.w.c = getNumConfirmations kw.w.c ∧
    (∀ k, new = .key k → kw'.keys.get k =
      some (.fn cfg.self "add_request,delete_request,confirm,add_and_confirm_request")) ∧
    (∀ k, new ≠ .key k → kw'.keys.get k = kw.keys.get k) ∧ kw'.queue = kw.queue := by
  intro kw'
  obtain ⟨book, k, log, now, iss, h1⟩ := propose_txs (g := g) h (q := ⟨cfg.self, [.addMember new]⟩) rfl
    ⟨rfl, trivial⟩ rfl hd1 hd2 hm0 hm0' hroom hids hnd hne hml hnum
  have hkw : kw' = kstep cfg ⟨⟨applyActions { kw.w.c with book := book } [.addMember new], now, iss⟩,
      kw.keys, kw.queue ++ [(k, ⟨cfg.self, [Action.addMember new].filterMap (Action.toP cfg.self)⟩)], log⟩
      (.deliver kw.queue.length []) := by
    show krun cfg kw _ = _
    rw [krun_snoc, h1]
    rfl
  have hmem : ∀ m, m ∈ getMembers (applyActions { kw.w.c with book := book } [.addMember new]) ↔
      m ∈ getMembers kw.w.c ∨ m = new := by
    intro m
    show m ∈ (kw.w.c.members.insert new ()).keys ↔ m ∈ kw.w.c.members.keys ∨ m = new
    rw [UMap.mem_keys, UMap.mem_keys, UMap.get_insert]
    by_cases he : new = m
    · subst he; simp
    · simp [he, Ne.symm he]
  cases new with
  | key k1 =>
    have hk1 := hnew k1 rfl
    simp only [kstep, List.getElem?_concat_length, List.filterMap_cons, Action.toP, List.filterMap_nil,
      runBatch, hk1, if_true, Option.getD_some, erase_last] at hkw
    rw [hkw]
    refine ⟨hmem, rfl, ?_, ?_, rfl⟩
    · intro k2 he
      cases he
      exact UMap.get_insert_self ..
    · intro k2 he
      exact UMap.get_insert_ne (fun h => he (by rw [h])) ..
  | account who =>
    simp only [kstep, List.getElem?_concat_length, List.filterMap_cons, Action.toP, List.filterMap_nil,
      runBatch, Option.getD_some, erase_last] at hkw
    rw [hkw]
    refine ⟨hmem, rfl, ?_, fun _ _ => rfl, rfl⟩
    intro k2 he
    cases he

/-- The account after the founding batch has arrived. -/
def demoReady : KWorld := krun demoKCfg demoK [.deliver 0 []]

theorem demoReady_reachable : Reachable "ms" demoMembers 2 demoReady.w := by
  refine ⟨demoReady.w, [], ⟨_, _, 1000, "founder", "fk", rfl, ?_⟩, rfl⟩
  rfl

/-- The hypotheses are met when the key `k1` proposes the key `k2`, and `bob` and `k1` confirm. -/
example : demoReady.keys.get "k2" = none ∧
    demoKCfg.decode "add_request" [1] = some (.addRequest ⟨demoKCfg.self, [.addMember (.key "k2")]⟩) ∧
    demoKCfg.decode "confirm" [0] = some (.confirm (getRequestNonce demoReady.w.c)) ∧
    (∀ m ∈ [Member.account "bob", .key "k1"], m ∈ getMembers demoReady.w.c) ∧
    CanCall demoKCfg demoReady "add_request" (.key "k1") ∧
    CanCall demoKCfg demoReady "confirm" (.key "k1") ∧
    CanCall demoKCfg demoReady "confirm" (.account "bob") ∧
    numPending demoReady.w.c (.key "k1") < demoReady.w.c.limit ∧
    getRequestNonce demoReady.w.c + 1 < two32 ∧
    getNumConfirmations demoReady.w.c = [Member.account "bob", .key "k1"].length := by
  have hp : demoReady.keys.get "k1" = some (.fn demoKCfg.self
      "add_request,delete_request,confirm,add_and_confirm_request") := by decide +kernel
  refine ⟨by decide +kernel, by decide +kernel, by decide +kernel, by decide +kernel,
    .inr ⟨_, hp, .inr (by decide +kernel)⟩, .inr ⟨_, hp, .inr (by decide +kernel)⟩,
    by show "bob" ≠ "ms"; decide, by decide +kernel, by decide +kernel, by decide +kernel⟩

/-- **C106, a member leaves.** If at least `num_confirmations` members remain, `num_confirmations` distinct
members can remove a member: afterwards the members are the others, and if it is a key, it is no access key
of the account any more; every other key is as before. -/
theorem C106_delete_member {cfg : KCfg} {ms : List Member} {n : Nat} {kw : KWorld}
    (h : Reachable cfg.self ms n kw.w) {old : Member}
    (hold : ∀ k, old = .key k → kw.keys.get k ≠ none)
    (hleft : getNumConfirmations kw.w.c + 1 ≤ (getMembers kw.w.c).length)
    {f1 f2 : String} {a1 a2 : Bytes} {g : Nat}
    (hd1 : cfg.decode f1 a1 = some (.addRequest ⟨cfg.self, [.deleteMember old]⟩))
    (hd2 : cfg.decode f2 a2 = some (.confirm (getRequestNonce kw.w.c)))
    {m0 : Member} (hm0 : m0 ∈ getMembers kw.w.c) (hm0' : CanCall cfg kw f1 m0)
    (hroom : numPending kw.w.c m0 < kw.w.c.limit)
    (hids : getRequestNonce kw.w.c + 1 < two32) {ml : List Member} (hnd : ml.Nodup) (hne : ml ≠ [])
    (hml : ∀ m ∈ ml, m ∈ getMembers kw.w.c ∧ CanCall cfg kw f2 m)
    (hnum : getNumConfirmations kw.w.c = ml.length) :
    let kw' := krun cfg kw ((memberTx f1 a1 g (.addRequest ⟨cfg.self, [.deleteMember old]⟩) m0 ::
      ml.map (memberTx f2 a2 g (.confirm (getRequestNonce kw.w.c)))) ++ [.deliver kw.queue.length []])
    (∀ m, m ∈ getMembers kw'.w.c ↔ m ∈ getMembers kw.w.c ∧ m ≠ old) ∧
    getNumConfirmations kw'.w.c = getNumConfirmations kw.w.c ∧
    (∀ k, old = .key k → kw'.keys.get k = none) ∧
    (∀ k, old ≠ .key k → kw'.keys.get k = kw.keys.get k) ∧ kw'.queue = kw.queue := by
  intro kw'
  obtain ⟨book, k, log, now, iss, h1⟩ := propose_txs (g := g) h
    (q := ⟨cfg.self, [.deleteMember old]⟩) rfl
    ⟨⟨rfl, by rw [UMap.len_eq_keys]; exact hleft⟩, trivial⟩ rfl hd1 hd2 hm0 hm0' hroom hids hnd hne hml hnum
  have hkw : kw' = kstep cfg ⟨⟨applyActions { kw.w.c with book := book } [.deleteMember old], now, iss⟩,
      kw.keys, kw.queue ++ [(k, ⟨cfg.self, [Action.deleteMember old].filterMap (Action.toP cfg.self)⟩)],
      log⟩ (.deliver kw.queue.length []) := by
    show krun cfg kw _ = _
    rw [krun_snoc, h1]
    rfl
  have hmem : ∀ m, m ∈ getMembers (applyActions { kw.w.c with book := book } [.deleteMember old]) ↔
      m ∈ getMembers kw.w.c ∧ m ≠ old := by
    intro m
    show m ∈ (kw.w.c.members.remove old).keys ↔ m ∈ kw.w.c.members.keys ∧ m ≠ old
    rw [UMap.mem_keys, UMap.mem_keys, UMap.get_remove]
    by_cases he : old = m
    · subst he; simp
    · simp [he, Ne.symm he]
  cases old with
  | key k1 =>
    have hk1 := hold k1 rfl
    simp only [kstep, List.getElem?_concat_length, List.filterMap_cons, Action.toP, List.filterMap_nil,
      runBatch, hk1, if_false, Option.getD_some, erase_last] at hkw
    rw [hkw]
    refine ⟨hmem, rfl, ?_, ?_, rfl⟩
    · intro k2 he
      cases he
      exact UMap.get_remove_self ..
    · intro k2 he
      exact UMap.get_remove_ne (fun h => he (by rw [h])) ..
  | account who =>
    simp only [kstep, List.getElem?_concat_length, List.filterMap_cons, Action.toP, List.filterMap_nil,
      runBatch, Option.getD_some, erase_last] at hkw
    rw [hkw]
    refine ⟨hmem, rfl, ?_, fun _ _ => rfl, rfl⟩
    intro k2 he
    cases he

/-- `carol` proposes to remove the key `k1`, and `carol` and `bob` confirm. -/
example :
    let cfg : KCfg := ⟨"ms", fun f a => if f = "add_request" ∧ a = [7] then
      some (.addRequest ⟨"ms", [.deleteMember (.key "k1")]⟩) else demoDecode f a⟩
    Reachable cfg.self demoMembers 2 demoReady.w ∧ demoReady.keys.get "k1" ≠ none ∧
    getNumConfirmations demoReady.w.c + 1 ≤ (getMembers demoReady.w.c).length ∧
    cfg.decode "add_request" [7] = some (.addRequest ⟨cfg.self, [.deleteMember (.key "k1")]⟩) ∧
    (∀ m ∈ [Member.account "carol", .account "bob"], m ∈ getMembers demoReady.w.c) ∧
    CanCall cfg demoReady "add_request" (.account "carol") ∧
    CanCall cfg demoReady "confirm" (.account "bob") ∧
    numPending demoReady.w.c (.account "carol") < demoReady.w.c.limit :=
  ⟨demoReady_reachable, by decide +kernel, by decide +kernel, by decide +kernel, by decide +kernel,
    by show "carol" ≠ "ms"; decide, by show "bob" ≠ "ms"; decide, by decide +kernel⟩

/-- **C98, what a member key may sign.** The holder of a key with the permission that member keys get can
sign exactly the transactions that consist of one call of one of the four methods named in it, without
deposit. -/
theorem C98_member_key_signs {cfg : KCfg} {kw : KWorld} {k : PublicKey}
    (hk : kw.keys.get k =
      some (.fn cfg.self "add_request,delete_request,confirm,add_and_confirm_request"))
    (acts : List PAction) :
    Signs cfg kw k acts ↔ ∃ f a g, acts = [.functionCall f a 0 g] ∧
      f ∈ ["add_request", "delete_request", "confirm", "add_and_confirm_request"] := by
  have hsplit : splitCommas "add_request,delete_request,confirm,add_and_confirm_request".toList =
      ["add_request", "delete_request", "confirm", "add_and_confirm_request"].map String.toList := by
    decide +kernel
  have hpermit : ∀ f, Perm.permits (.fn cfg.self
      "add_request,delete_request,confirm,add_and_confirm_request") cfg.self f = true ↔
      f ∈ ["add_request", "delete_request", "confirm", "add_and_confirm_request"] := by
    intro f
    simp only [Perm.permits, hsplit, decide_true, Bool.true_and, Bool.or_eq_true, decide_eq_true_eq,
      List.contains_iff_mem, List.mem_map]
    constructor
    · rintro (h | ⟨x, hx, he⟩)
      · exact absurd h (by decide)
      · rw [← String.toList_inj.mp he]; exact hx
    · intro h; exact .inr ⟨f, h, rfl⟩
  unfold Signs
  rw [hk]
  constructor
  · rintro ⟨p, hp, hal⟩
    cases hp
    match acts, hal with
    | [.functionCall f a d g], hal =>
      simp only [permAllows, Bool.and_eq_true, decide_eq_true_eq] at hal
      obtain ⟨h1, rfl⟩ := hal
      exact ⟨f, a, g, rfl, (hpermit f).mp h1⟩
    | [], hal => simp [permAllows] at hal
    | [.transfer _], hal => simp [permAllows] at hal
    | [.createAccount], hal => simp [permAllows] at hal
    | [.deployContract _], hal => simp [permAllows] at hal
    | [.addAccessKey _ _ _ _], hal => simp [permAllows] at hal
    | [.addFullAccessKey _], hal => simp [permAllows] at hal
    | [.deleteKey _], hal => simp [permAllows] at hal
    | _ :: _ :: _, hal => simp [permAllows] at hal
  · rintro ⟨f, a, g, rfl, hf⟩
    refine ⟨_, rfl, ?_⟩
    simp only [permAllows, decide_true, Bool.and_true]
    exact (hpermit f).mpr hf

example : demoReady.keys.get "k1" =
    some (.fn demoKCfg.self "add_request,delete_request,confirm,add_and_confirm_request") := by
  decide +kernel

end Verif.Multisig2
