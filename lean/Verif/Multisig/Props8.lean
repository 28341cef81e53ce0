import Verif.Multisig.Props5
import Verif.Multisig.Props7

/-!
# Multisig: the holders of the keys can pay (C118)
-/

namespace Verif.Multisig

open Verif

/-! ## Helper lemmas -/

theorem allAmount_append (l1 l2 : List (Nat × Batch)) :
    allAmount (l1 ++ l2) = allAmount l1 + allAmount l2 := by
  simp [allAmount]

/-- If the account can pay for everything that is executed, the events happen as they do without tokens. -/
theorem prun_enough (cfg : KCfg) (kevs : List KEv) (pw : PWorld) (l : List (Nat × Batch))
    (hl : (krun cfg pw.kw kevs).w.issued = l ++ pw.kw.w.issued) (hle : allAmount l ≤ pw.bal) :
    (prun cfg pw (kevs.map .acc)).kw = krun cfg pw.kw kevs ∧
    (prun cfg pw (kevs.map .acc)).bal = pw.bal - leaving cfg.self l := by
  induction kevs generalizing pw l with
  | nil =>
    have : l = [] := by
      have := congrArg List.length hl
      simp only [krun, List.length_append] at this
      exact List.length_eq_zero_iff.mp (by omega)
    subst this
    exact ⟨rfl, rfl⟩
  | cons ev t ih =>
    simp only [krun] at hl
    have h1 := since_append (cfg := cfg) pw.kw ev
    have hsuf : ∀ (t : List KEv) (kw : KWorld), kw.w.issued <:+ (krun cfg kw t).w.issued := by
      intro t
      induction t with
      | nil => exact fun _ => List.suffix_refl _
      | cons e t ih => exact fun kw => (suffix_step kw e).trans (ih _)
    obtain ⟨l2, h2⟩ := hsuf t (kstep cfg pw.kw ev)
    have h3 : l = l2 ++ issuedSince pw.kw (kstep cfg pw.kw ev) := by
      rw [← h2, h1, ← List.append_assoc] at hl
      exact (List.append_cancel_right hl).symm
    subst h3
    rw [allAmount_append] at hle
    have h4 := leaving_le cfg.self (issuedSince pw.kw (kstep cfg pw.kw ev))
    have hst : pstep cfg pw (.acc ev) = { pw with
        kw := kstep cfg pw.kw ev
        bal := pw.bal - leaving cfg.self (issuedSince pw.kw (kstep cfg pw.kw ev)) } := by
      simp only [pstep]
      rw [if_pos (by omega)]
    obtain ⟨g1, g2⟩ := ih (pstep cfg pw (.acc ev)) l2 (by rw [hst]; exact h2.symm) (by rw [hst]; simp only; omega)
    refine ⟨?_, ?_⟩
    · show (prun cfg (pstep cfg pw (.acc ev)) _).kw = _
      rw [g1, hst]; rfl
    · show (prun cfg (pstep cfg pw (.acc ev)) _).bal = _
      rw [g2, hst, leaving_append]; simp only; omega

/-- The holders of as many keys as confirmations are missing confirm a request: it is executed. -/
theorem confirm_pays {cfg : KCfg} {id : Nat} {st : Stored PublicKey Request} {m : String} {a : Bytes}
    {g : Nat} (hd : cfg.decode m a = some (.confirm id))
    (hex : Executable cfg.self st.request) (ks : List PublicKey) (kw : KWorld) (cs : List PublicKey)
    (hinv : MInv kw.w.c) (hg : kw.w.c.book.requests.get id = some st)
    (hc : kw.w.c.book.confs.get id = some cs) (hnd : ks.Nodup) (hne : ks ≠ [])
    (hks : ∀ k ∈ ks, MayCall cfg kw k m ∧ k ∉ cs)
    (hnum : kw.w.c.numConfirmations = cs.length + ks.length) :
    (krun cfg kw (ks.map (fun k => callTx k m a g))).w.issued = (id, st.request.toBatch) :: kw.w.issued ∧
    (krun cfg kw (ks.map (fun k => callTx k m a g))).keys = kw.keys := by
  induction ks generalizing kw cs with
  | nil => exact absurd rfl hne
  | cons k t ih =>
    have hlen := hinv.len id cs hc
    have hmod : cs.length % two32 = cs.length := Nat.mod_eq_of_lt (by omega)
    obtain ⟨h2, h3⟩ := hks k List.mem_cons_self
    simp only [List.map_cons, krun]
    simp only [List.length_cons] at hnum
    by_cases ht : t = []
    · subst ht
      simp only [List.length_nil] at hnum
      have hr : ExecRel (mkEnv cfg.self kw.w cfg.self k 0 true) kw.w.c (.confirm id) ⟨_, id, _⟩ :=
        .confirm id _ _ rfl (.executed st cs rfl hg hc h3 (by rw [hmod]; exact hlen)
          (by rw [hmod]; omega) hex rfl)
      rw [callTx_step h2 hd (exec_ok.mpr hr)]
      simp only [krun, List.map_nil, step, exec_ok.mpr hr, logged, and_self]
    · have hpos : 0 < t.length := List.length_pos_iff.mpr ht
      have hr : ExecRel (mkEnv cfg.self kw.w cfg.self k 0 true) kw.w.c (.confirm id) ⟨_, id, _⟩ :=
        .confirm id _ _ rfl (.stored st cs rfl hg hc h3 (by rw [hmod]; exact hlen)
          (by rw [hmod]; omega))
      have hst : step cfg.self kw.w (.call cfg.self k 0 true (.confirm id)) =
          { kw.w with c := { kw.w.c with book := kw.w.c.book.confirm id cs k } } := by
        simp only [step, exec_ok.mpr hr, logged]; rfl
      have hinv' := minv_step (self := cfg.self) (.call cfg.self k 0 true (.confirm id)) hinv
      rw [callTx_step h2 hd (exec_ok.mpr hr)]
      rw [hst] at hinv' ⊢
      simp only [enqueue]
      refine ih ⟨{ kw.w with c := { kw.w.c with book := kw.w.c.book.confirm id cs k } }, kw.keys, kw.queue,
        kw.log ++ [.call cfg.self k 0 true (.confirm id)]⟩ (cs ++ [k]) hinv' hg ?_
        (List.nodup_cons.mp hnd).2 ht ?_ ?_
      · simp [Book.confirm]
      · intro k' hk'
        obtain ⟨g2, g3⟩ := hks k' (List.mem_cons_of_mem _ hk')
        refine ⟨g2, fun hmem => ?_⟩
        rcases List.mem_append.mp hmem with hmem | hmem
        · exact g3 hmem
        · rw [List.mem_singleton] at hmem
          subst hmem
          exact (List.nodup_cons.mp hnd).1 hk'
      · show kw.w.c.numConfirmations = (cs ++ [k]).length + t.length
        simp only [List.length_append, List.length_cons, List.length_nil]
        omega

/-- The holders of `num_confirmations` keys propose and confirm a request. -/
theorem propose_pays {cfg : KCfg} {n : Nat} {kw : KWorld} (h : Reachable cfg.self n kw.w) {q : Request}
    (hex : Executable cfg.self q)
    (hrange : q.actions.all Action.inRange = true) {m1 m2 : String} {a1 a2 : Bytes} {g : Nat}
    (hd1 : cfg.decode m1 a1 = some (.addRequest q))
    (hd2 : cfg.decode m2 a2 = some (.confirm (getRequestNonce kw.w.c)))
    {k0 : PublicKey} (hk0 : MayCall cfg kw k0 m1) (hroom : numPending kw.w.c k0 < kw.w.c.limit)
    (hids : getRequestNonce kw.w.c + 1 < two32) {ks : List PublicKey} (hnd : ks.Nodup) (hne : ks ≠ [])
    (hks : ∀ k ∈ ks, MayCall cfg kw k m2) (hnum : getNumConfirmations kw.w.c = ks.length) :
    (krun cfg kw (callTx k0 m1 a1 g :: ks.map (fun k => callTx k m2 a2 g))).w.issued =
      (getRequestNonce kw.w.c, q.toBatch) :: kw.w.issued ∧
    (krun cfg kw (callTx k0 m1 a1 g :: ks.map (fun k => callTx k m2 a2 g))).keys = kw.keys := by
  obtain ⟨r, hx⟩ := (C43_add_request_iff h cfg.self k0 0 true q).mpr ⟨rfl, rfl, hrange, hroom, hids⟩
  have hr' : Reachable cfg.self n (step cfg.self kw.w (.call cfg.self k0 0 true (.addRequest q))) := by
    obtain ⟨w0, evs, h1, h2⟩ := h
    exact ⟨w0, evs ++ [_], h1, by rw [run_snoc, ← h2]⟩
  simp only [krun]
  rw [callTx_step hk0 hd1 hx]
  have hst : step cfg.self kw.w (.call cfg.self k0 0 true (.addRequest q)) =
      { kw.w with c := r.c, issued := logged r kw.w.issued } := by simp only [step, hx]
  rw [hst] at hr' ⊢
  cases exec_ok.mp hx with
  | add q h1 h2 =>
    exact confirm_pays (cfg := cfg) (id := getRequestNonce kw.w.c)
      (st := ⟨q, k0, kw.w.now⟩) (g := g) hd2 hex ks
      ⟨{ kw.w with c := added (mkEnv cfg.self kw.w cfg.self k0 0 true) kw.w.c q }, kw.keys, kw.queue,
        kw.log ++ [.call cfg.self k0 0 true (.addRequest q)]⟩ [] (reachable_minv hr')
      (by simp [getRequestNonce, added, Book.add, mkEnv])
      (by simp [getRequestNonce, added, Book.add]) hnd hne
      (fun k hk => ⟨hks k hk, by simp⟩) (by rw [List.length_nil, Nat.zero_add]; exact hnum)

/-! ## Property theorem -/

/-- **C118 (the holders of the keys can pay).** After any history, the holders of `num_confirmations` distinct
keys can make the account pay with what is on it: one of them proposes a request of payments and calls to
another account, all of them confirm; it is executed, exactly the proposed tokens are gone, and the keys are as
before. Whoever proposes needs room for one more request. -/
theorem C118_multisig_keys_can_pay {cfg : KCfg} {n : Nat} {kw0 : KWorld} (hs : KStarted n kw0)
    (bal0 : Nat) (evs : List PEv) :
    let pw := prun cfg ⟨kw0, bal0, []⟩ evs
    ∀ (q : Request) m1 m2 a1 a2 g k0 (ks : List PublicKey),
      (∀ a ∈ q.actions, a.inRange = true ∧ ((∃ x, a = .transfer x) ∨ a = .createAccount ∨
        (∃ c, a = .deployContract c) ∨ ∃ m ar d g, a = .functionCall m ar d g)) →
      q.receiver ≠ cfg.self → ((q.actions.filterMap Action.toP).map tokens).sum ≤ pw.bal →
      cfg.decode m1 a1 = some (.addRequest q) →
      cfg.decode m2 a2 = some (.confirm (getRequestNonce pw.kw.w.c)) →
      MayCall cfg pw.kw k0 m1 → numPending pw.kw.w.c k0 < pw.kw.w.c.limit →
      getRequestNonce pw.kw.w.c + 1 < 2 ^ 32 →
      ks.Nodup → ks ≠ [] → (∀ k ∈ ks, MayCall cfg pw.kw k m2) → getNumConfirmations pw.kw.w.c = ks.length →
      let pw' := prun cfg pw (.acc (callTx k0 m1 a1 g) :: ks.map (fun k => .acc (callTx k m2 a2 g)))
      pw'.kw.w.issued = (getRequestNonce pw.kw.w.c, ⟨q.receiver, q.actions.filterMap Action.toP⟩) ::
        pw.kw.w.issued ∧
      pw'.bal + ((q.actions.filterMap Action.toP).map tokens).sum = pw.bal ∧ pw'.kw.keys = pw.kw.keys := by
  intro pw q m1 m2 a1 a2 g k0 ks hacts hrec hbal hd1 hd2 hk0 hroom hids hnd hne hks hnum pw'
  obtain ⟨kevs, hk, _⟩ := prun_krun cfg ⟨kw0, bal0, []⟩ evs
  have hk : pw.kw = krun cfg kw0 kevs := hk
  have hr : Reachable cfg.self n pw.kw.w :=
    ⟨kw0.w, pw.kw.log, hs.1, by rw [hk]; exact (kinv_run hs kevs).w⟩
  obtain ⟨g1, g2⟩ := propose_pays (g := g) hr (q := q)
    (by
      intro a ha
      rcases (hacts a ha).2 with ⟨_, rfl⟩ | rfl | ⟨_, rfl⟩ | ⟨_, _, _, _, rfl⟩ <;> trivial)
    (List.all_eq_true.mpr fun a ha => (hacts a ha).1) hd1 hd2 hk0 hroom hids hnd hne hks hnum
  have htok : PAction.amount = tokens := funext (fun a => by cases a <;> rfl)
  have hamt : allAmount [(getRequestNonce pw.kw.w.c, q.toBatch)] =
      ((q.actions.filterMap Action.toP).map tokens).sum := by
    simp only [allAmount, Batch.amount, actsAmount, htok, List.map_cons, List.map_nil, List.sum_cons,
      List.sum_nil, Nat.add_zero, Request.toBatch]
  have hlv : leaving cfg.self [(getRequestNonce pw.kw.w.c, q.toBatch)] =
      ((q.actions.filterMap Action.toP).map tokens).sum := by
    simp only [leaving, Batch.amount, actsAmount, htok, List.map_cons, List.map_nil, List.sum_cons,
      List.sum_nil, Nat.add_zero, Request.toBatch, if_neg hrec]
  obtain ⟨j1, j2⟩ := prun_enough cfg _ pw [_] g1 (by rw [hamt]; exact hbal)
  have hpw : pw' = prun cfg pw ((callTx k0 m1 a1 g :: ks.map (fun k => callTx k m2 a2 g)).map .acc) := by
    simp only [List.map_cons, List.map_map]; rfl
  rw [hpw, j1, j2, hlv]
  exact ⟨g1, by omega, g2⟩

/-- The hypotheses are met: of 7 and 2 tokens, 5 were paid by two keys; `k3` proposes to pay what the request
of `demoPay` says once more when another 3 tokens are there, `k1` and `k3` confirm. -/
example :
    let pw := prun demoKCfg ⟨demoKeys, 7, []⟩ (demoPurse.take 4 ++ [.receive 3])
    pw.bal = 7 ∧ getRequestNonce pw.kw.w.c = 1 ∧ numPending pw.kw.w.c "k3" < pw.kw.w.c.limit ∧
    getNumConfirmations pw.kw.w.c = 2 ∧ pw.kw.keys.get "k1" = some demoPerm ∧
    pw.kw.keys.get "k3" = some demoPerm ∧
    "confirm".toList ∈ splitCommas "add_request,delete_request,confirm".toList ∧
    "add_request".toList ∈ splitCommas "add_request,delete_request,confirm".toList ∧
    demoKCfg.decode "add_request" [0] = some (.addRequest demoPay) ∧
    demoKCfg.decode "confirm" [1] = some (.confirm 1) ∧
    (prun demoKCfg pw [.acc (callTx "k3" "add_request" [0] 0), .acc (callTx "k1" "confirm" [1] 0),
      .acc (callTx "k3" "confirm" [1] 0)]).bal = 2 := by
  decide +kernel

end Verif.Multisig
