import Verif.Multisig.Props3
import Verif.Multisig.Props4

/-!
# Multisig: the key holders change the access keys (C106)
-/

namespace Verif.Multisig

open Verif

/-- A transaction to the account itself that calls one method without deposit. -/
def callTx (k : PublicKey) (m : String) (a : Bytes) (g : Nat) : KEv :=
  .sign k [.functionCall m a 0 g] [true]

/-- `k` is an access key of the account with which its holder may call `m`. -/
def MayCall (cfg : KCfg) (kw : KWorld) (k : PublicKey) (m : String) : Prop :=
  kw.keys.get k = some .full ∨
  ∃ ms, kw.keys.get k = some (.fn cfg.self ms) ∧ (ms = "" ∨ m.toList ∈ splitCommas ms.toList)

theorem callTx_step {cfg : KCfg} {kw : KWorld} {k : PublicKey} {m : String} {a : Bytes} {g : Nat}
    {c : Call} {r : Res} (hm : MayCall cfg kw k m) (hd : cfg.decode m a = some c)
    (hx : exec (mkEnv cfg.self kw.w cfg.self k 0 true) kw.w.c c = .ok r) :
    kstep cfg kw (callTx k m a g) =
      { kw with w := step cfg.self kw.w (.call cfg.self k 0 true c)
                queue := enqueue cfg.self k r kw.queue
                log := kw.log ++ [.call cfg.self k 0 true c] } := by
  have hrun : runBatch cfg k kw [true] [.functionCall m a 0 g] =
      some { kw with w := step cfg.self kw.w (.call cfg.self k 0 true c)
                     queue := enqueue cfg.self k r kw.queue
                     log := kw.log ++ [.call cfg.self k 0 true c] } := by
    simp only [runBatch, hd, List.headD_cons, hx]
  rcases hm with h | ⟨ms, h, hms⟩
  · simp only [callTx, kstep, h, permAllows, if_true, hrun, Option.getD_some]
  · have hp : permAllows cfg.self (.fn cfg.self ms) [.functionCall m a 0 g] = true := by
      rcases hms with rfl | hms
      · simp [permAllows, Perm.permits]
      · simp [permAllows, Perm.permits, hms]
    simp only [callTx, kstep, h, hp, if_true, hrun, Option.getD_some]

/-- The holders of as many keys as confirmations are missing confirm a request to the account itself: its
batch is under way. -/
theorem confirm_txs {cfg : KCfg} {id : Nat} {st : Stored PublicKey Request} {m : String} {a : Bytes}
    {g : Nat} (hd : cfg.decode m a = some (.confirm id)) (hself : st.request.receiver = cfg.self)
    (hex : Executable cfg.self st.request) (ks : List PublicKey) (kw : KWorld) (cs : List PublicKey)
    (hinv : MInv kw.w.c) (hg : kw.w.c.book.requests.get id = some st)
    (hc : kw.w.c.book.confs.get id = some cs) (hnd : ks.Nodup) (hne : ks ≠ [])
    (hks : ∀ k ∈ ks, MayCall cfg kw k m ∧ k ∉ cs)
    (hnum : kw.w.c.numConfirmations = cs.length + ks.length) :
    ∃ k log, krun cfg kw (ks.map (fun k => callTx k m a g)) =
      ⟨run cfg.self kw.w (ks.map (fun k => .call cfg.self k 0 true (.confirm id))), kw.keys,
        kw.queue ++ [(k, st.request.toBatch)], log⟩ ∧
      (run cfg.self kw.w (ks.map (fun k => .call cfg.self k 0 true (.confirm id)))).issued =
        (id, st.request.toBatch) :: kw.w.issued := by
  induction ks generalizing kw cs with
  | nil => exact absurd rfl hne
  | cons k t ih =>
    have hlen := hinv.len id cs hc
    have hmod : cs.length % two32 = cs.length := Nat.mod_eq_of_lt (by omega)
    obtain ⟨h2, h3⟩ := hks k List.mem_cons_self
    simp only [List.map_cons, krun, run]
    simp only [List.length_cons] at hnum
    by_cases ht : t = []
    · subst ht
      simp only [List.length_nil] at hnum
      have hr : ExecRel (mkEnv cfg.self kw.w cfg.self k 0 true) kw.w.c (.confirm id) ⟨_, id, _⟩ :=
        .confirm id _ _ rfl (.executed st cs rfl hg hc h3 (by rw [hmod]; exact hlen)
          (by rw [hmod]; omega) hex rfl)
      refine ⟨k, kw.log ++ [.call cfg.self k 0 true (.confirm id)], ?_, ?_⟩
      · rw [callTx_step h2 hd (exec_ok.mpr hr)]
        have hb : (st.request.toBatch).receiver = cfg.self := hself
        simp only [krun, run, List.map_nil, enqueue, hb, if_true]
      · simp only [run, List.map_nil, step, exec_ok.mpr hr, logged]
    · have hpos : 0 < t.length := List.length_pos_iff.mpr ht
      have hr : ExecRel (mkEnv cfg.self kw.w cfg.self k 0 true) kw.w.c (.confirm id) ⟨_, id, _⟩ :=
        .confirm id _ _ rfl (.stored st cs rfl hg hc h3 (by rw [hmod]; exact hlen)
          (by rw [hmod]; omega))
      have hst : step cfg.self kw.w (.call cfg.self k 0 true (.confirm id)) =
          { kw.w with c := { kw.w.c with book := kw.w.c.book.confirm id cs k } } := by
        simp only [step, exec_ok.mpr hr, logged]; rfl
      have hinv' := minv_step (self := cfg.self) (.call cfg.self k 0 true (.confirm id)) hinv
      rw [callTx_step h2 hd (exec_ok.mpr hr)]
      rw [hst] at hinv' ⊢
      simp only [enqueue]
      refine ih ⟨{ kw.w with c := { kw.w.c with book := kw.w.c.book.confirm id cs k } }, kw.keys, kw.queue,
        kw.log ++ [.call cfg.self k 0 true (.confirm id)]⟩ (cs ++ [k]) hinv' hg ?_
        (List.nodup_cons.mp hnd).2 ht ?_ ?_
      · simp [Book.confirm]
      · intro k' hk'
        obtain ⟨g2, g3⟩ := hks k' (List.mem_cons_of_mem _ hk')
        refine ⟨g2, fun hmem => ?_⟩
        rcases List.mem_append.mp hmem with hmem | hmem
        · exact g3 hmem
        · rw [List.mem_singleton] at hmem
          subst hmem
          exact (List.nodup_cons.mp hnd).1 hk'
      · show kw.w.c.numConfirmations = (cs ++ [k]).length + t.length
        simp only [List.length_append, List.length_cons, List.length_nil]
        omega

/-- The holders of `num_confirmations` keys propose and confirm a request to the account itself. -/
theorem propose_txs {cfg : KCfg} {n : Nat} {kw : KWorld} (h : Reachable cfg.self n kw.w) {q : Request}
    (hq : q.receiver = cfg.self) (hex : Executable cfg.self q)
    (hrange : q.actions.all Action.inRange = true) {m1 m2 : String} {a1 a2 : Bytes} {g : Nat}
    (hd1 : cfg.decode m1 a1 = some (.addRequest q))
    (hd2 : cfg.decode m2 a2 = some (.confirm (getRequestNonce kw.w.c)))
    {k0 : PublicKey} (hk0 : MayCall cfg kw k0 m1) (hroom : numPending kw.w.c k0 < kw.w.c.limit)
    (hids : getRequestNonce kw.w.c + 1 < two32) {ks : List PublicKey} (hnd : ks.Nodup) (hne : ks ≠ [])
    (hks : ∀ k ∈ ks, MayCall cfg kw k m2) (hnum : getNumConfirmations kw.w.c = ks.length) :
    ∃ w' k log, krun cfg kw (callTx k0 m1 a1 g :: ks.map (fun k => callTx k m2 a2 g)) =
      ⟨w', kw.keys, kw.queue ++ [(k, q.toBatch)], log⟩ ∧
      w'.issued = (getRequestNonce kw.w.c, q.toBatch) :: kw.w.issued := by
  obtain ⟨r, hx⟩ := (C43_add_request_iff h cfg.self k0 0 true q).mpr ⟨rfl, rfl, hrange, hroom, hids⟩
  have hr' : Reachable cfg.self n (step cfg.self kw.w (.call cfg.self k0 0 true (.addRequest q))) := by
    obtain ⟨w0, evs, h1, h2⟩ := h
    exact ⟨w0, evs ++ [_], h1, by rw [run_snoc, ← h2]⟩
  simp only [krun]
  rw [callTx_step hk0 hd1 hx]
  have hst : step cfg.self kw.w (.call cfg.self k0 0 true (.addRequest q)) =
      { kw.w with c := r.c, issued := logged r kw.w.issued } := by simp only [step, hx]
  rw [hst] at hr' ⊢
  cases exec_ok.mp hx with
  | add q h1 h2 =>
    obtain ⟨k, log, g1, g2⟩ := confirm_txs (cfg := cfg) (id := getRequestNonce kw.w.c)
      (st := ⟨q, k0, kw.w.now⟩) (g := g) hd2 hq hex ks
      ⟨{ kw.w with c := added (mkEnv cfg.self kw.w cfg.self k0 0 true) kw.w.c q }, kw.keys, kw.queue,
        kw.log ++ [.call cfg.self k0 0 true (.addRequest q)]⟩ [] (reachable_minv hr')
      (by simp [getRequestNonce, added, Book.add, mkEnv])
      (by simp [getRequestNonce, added, Book.add]) hnd hne
      (fun k hk => ⟨hks k hk, by simp⟩) (by rw [List.length_nil, Nat.zero_add]; exact hnum)
    exact ⟨_, k, log, g1, g2⟩

/-- **C106, adding a key.** The holders of `num_confirmations` distinct keys can give the account a new
access key: one of them proposes it, all of them confirm, and when the batch arrives the new key is an
access key with exactly the requested permission (full access if none is named), and every other key is as
before. Whoever proposes needs room for one more request. -/
theorem C106_add_key {cfg : KCfg} {n : Nat} {kw : KWorld} (h : Reachable cfg.self n kw.w)
    {new : PublicKey} {perm : Option FnPermission} (hnew : kw.keys.get new = none)
    (hrange : ∀ p x, perm = some p → p.allowance = some x → x < 2 ^ 128)
    {m1 m2 : String} {a1 a2 : Bytes} {g : Nat}
    (hd1 : cfg.decode m1 a1 = some (.addRequest ⟨cfg.self, [.addKey new perm]⟩))
    (hd2 : cfg.decode m2 a2 = some (.confirm (getRequestNonce kw.w.c)))
    {k0 : PublicKey} (hk0 : MayCall cfg kw k0 m1) (hroom : numPending kw.w.c k0 < kw.w.c.limit)
    (hids : getRequestNonce kw.w.c + 1 < two32) {ks : List PublicKey} (hnd : ks.Nodup) (hne : ks ≠ [])
    (hks : ∀ k ∈ ks, MayCall cfg kw k m2) (hnum : getNumConfirmations kw.w.c = ks.length) :
    let kw' := krun cfg kw ((callTx k0 m1 a1 g :: ks.map (fun k => callTx k m2 a2 g)) ++
      [.deliver kw.queue.length []])
    kw'.keys.get new = some (match perm with
      | none => .full
      | some p => .fn p.receiver (String.intercalate "," p.methods)) ∧
    (∀ k, k ≠ new → kw'.keys.get k = kw.keys.get k) ∧ kw'.queue = kw.queue := by
  intro kw'
  obtain ⟨w', k, log, h1, _⟩ := propose_txs (g := g) h (q := ⟨cfg.self, [.addKey new perm]⟩) rfl
    (by intro a ha; rw [List.mem_singleton.mp ha]; rfl)
    (by
      simp only [List.all_cons, List.all_nil, Bool.and_true]
      cases perm with
      | none => rfl
      | some p =>
        simp only [Action.inRange, decide_eq_true_eq]
        cases hp : p.allowance with
        | none => decide
        | some x => exact hrange p x rfl hp)
    hd1 hd2 hk0 hroom hids hnd hne hks hnum
  have hkw : kw' = kstep cfg ⟨w', kw.keys, kw.queue ++ [(k, ⟨cfg.self, [Action.addKey new perm].filterMap
      Action.toP⟩)], log⟩ (.deliver kw.queue.length []) := by
    show krun cfg kw _ = _
    rw [krun_snoc, h1]
    rfl
  have he : ∀ x : PublicKey × Batch, (kw.queue ++ [x]).eraseIdx kw.queue.length = kw.queue := by
    intro x
    rw [List.eraseIdx_append_of_length_le (Nat.le_refl _)]
    simp
  cases perm with
  | none =>
    simp only [kstep, List.getElem?_concat_length, List.filterMap_cons, Action.toP, List.filterMap_nil,
      runBatch, hnew, if_true, Option.getD_some, he] at hkw
    rw [hkw]
    exact ⟨UMap.get_insert_self .., fun k hk => UMap.get_insert_ne (Ne.symm hk) .., rfl⟩
  | some p =>
    simp only [kstep, List.getElem?_concat_length, List.filterMap_cons, Action.toP, List.filterMap_nil,
      runBatch, hnew, if_true, Option.getD_some, he] at hkw
    rw [hkw]
    exact ⟨UMap.get_insert_self .., fun k hk => UMap.get_insert_ne (Ne.symm hk) .., rfl⟩

/-- The hypotheses are met when `k1` proposes a full access key for `k9` and `k3` and `k2` confirm. -/
example : Reachable demoGrantCfg.self 2 demoKeys.w ∧ demoKeys.keys.get "k9" = none ∧
    demoGrantCfg.decode "add_request" [9] = some (.addRequest ⟨demoGrantCfg.self, [.addKey "k9" none]⟩) ∧
    demoGrantCfg.decode "confirm" [0] = some (.confirm (getRequestNonce demoKeys.w.c)) ∧
    (∀ k ∈ ["k1", "k2", "k3"], MayCall demoGrantCfg demoKeys k "add_request" ∧
      MayCall demoGrantCfg demoKeys k "confirm") ∧
    numPending demoKeys.w.c "k1" < demoKeys.w.c.limit ∧ getRequestNonce demoKeys.w.c + 1 < two32 ∧
    getNumConfirmations demoKeys.w.c = ["k3", "k2"].length := by
  refine ⟨⟨demoStart, [], demo_started, rfl⟩, by decide +kernel, by decide +kernel, by decide +kernel, ?_,
    by decide +kernel, by decide +kernel, by decide +kernel⟩
  intro k hk
  have hp : demoKeys.keys.get k = some (.fn demoGrantCfg.self "add_request,delete_request,confirm") := by
    simp only [List.mem_cons, List.not_mem_nil, or_false] at hk
    rcases hk with rfl | rfl | rfl <;> decide +kernel
  exact ⟨.inr ⟨_, hp, .inr (by decide +kernel)⟩, .inr ⟨_, hp, .inr (by decide +kernel)⟩⟩

/-- **C106, removing a key.** In the same way they can take an access key away, also one of those that
do not take part; every other key is as before. -/
theorem C106_delete_key {cfg : KCfg} {n : Nat} {kw : KWorld} (h : Reachable cfg.self n kw.w)
    {old : PublicKey} {p : Perm} (hold : kw.keys.get old = some p)
    {m1 m2 : String} {a1 a2 : Bytes} {g : Nat}
    (hd1 : cfg.decode m1 a1 = some (.addRequest ⟨cfg.self, [.deleteKey old]⟩))
    (hd2 : cfg.decode m2 a2 = some (.confirm (getRequestNonce kw.w.c)))
    {k0 : PublicKey} (hk0 : MayCall cfg kw k0 m1) (hroom : numPending kw.w.c k0 < kw.w.c.limit)
    (hids : getRequestNonce kw.w.c + 1 < two32) {ks : List PublicKey} (hnd : ks.Nodup) (hne : ks ≠ [])
    (hks : ∀ k ∈ ks, MayCall cfg kw k m2) (hnum : getNumConfirmations kw.w.c = ks.length) :
    let kw' := krun cfg kw ((callTx k0 m1 a1 g :: ks.map (fun k => callTx k m2 a2 g)) ++
      [.deliver kw.queue.length []])
    kw'.keys.get old = none ∧ (∀ k, k ≠ old → kw'.keys.get k = kw.keys.get k) ∧
    kw'.queue = kw.queue := by
  intro kw'
  obtain ⟨w', k, log, h1, _⟩ := propose_txs (g := g) h (q := ⟨cfg.self, [.deleteKey old]⟩) rfl
    (by intro a ha; rw [List.mem_singleton.mp ha]; rfl) rfl
    hd1 hd2 hk0 hroom hids hnd hne hks hnum
  have hkw : kw' = kstep cfg ⟨w', kw.keys, kw.queue ++ [(k, ⟨cfg.self, [Action.deleteKey old].filterMap
      Action.toP⟩)], log⟩ (.deliver kw.queue.length []) := by
    show krun cfg kw _ = _
    rw [krun_snoc, h1]
    rfl
  have he : ∀ x : PublicKey × Batch, (kw.queue ++ [x]).eraseIdx kw.queue.length = kw.queue := by
    intro x
    rw [List.eraseIdx_append_of_length_le (Nat.le_refl _)]
    simp
  simp only [kstep, List.getElem?_concat_length, List.filterMap_cons, Action.toP, List.filterMap_nil,
    runBatch, hold, reduceCtorEq, if_false, Option.getD_some, he] at hkw
  rw [hkw]
  exact ⟨UMap.get_remove_self .., fun k hk => UMap.get_remove_ne (Ne.symm hk) .., rfl⟩

/-- `k3` proposes to remove `k1`, and `k2` and `k3` confirm. -/
example : demoKeys.keys.get "k1" = some demoPerm ∧
    demoKCfg.decode "add_request" [1] = some (.addRequest ⟨demoKCfg.self, [.deleteKey "k1"]⟩) ∧
    demoKCfg.decode "confirm" [0] = some (.confirm (getRequestNonce demoKeys.w.c)) ∧
    numPending demoKeys.w.c "k3" < demoKeys.w.c.limit ∧
    getNumConfirmations demoKeys.w.c = ["k2", "k3"].length := by decide +kernel

end Verif.Multisig
