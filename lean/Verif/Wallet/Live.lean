import Verif.Wallet.Sim

/-! # Members make the wallet act -/

namespace Verif.Wallet

open Verif
open Verif.System (Sys)
open Verif.Multisig2 (KWorld KCfg KEv PAction Batch kstep krun Member Request Call)

/-- What a member says is a call of the contract in its name. -/
theorem speaks_call {cfg : KCfg} {kw : KWorld} {m : Member} {c : Call} {ev : KEv}
    (h : Speaks cfg kw.keys m c ev) :
    ∃ who pk, Multisig2.actor cfg.self who pk = m ∧
      kstep cfg kw ev = (Multisig2.callK cfg kw who pk 0 true c).getD kw := by
  rcases h with ⟨a, pk, rfl, hne, rfl⟩ | ⟨k, p, name, args, g, rfl, hk, hp, hd, rfl⟩
  · refine ⟨a, pk, ?_, ?_⟩
    · simp [Multisig2.actor, Ne.symm hne]
    · simp only [kstep, if_neg hne]
  · refine ⟨cfg.self, k, by simp [Multisig2.actor], ?_⟩
    simp only [kstep, hk]
    have : Multisig2.permAllows cfg.self p [.functionCall name args 0 g] = true := by
      unfold Multisig2.permAllows
      split
      · rfl
      · rename_i he
        cases he
        simp [hp]
      · rename_i h1 h2
        exact absurd rfl (h2 _ _ _ _)
    rw [if_pos this]
    simp only [Multisig2.runBatch, hd, List.headD_cons]
    cases Multisig2.callK cfg kw cfg.self k 0 true c <;> rfl

theorem callK_of {cfg : KCfg} {kw : KWorld} {who : AccountId} {pk : PublicKey} {d : Nat} {host : Bool}
    {c : Call} {r : Multisig2.Res}
    (h : Multisig2.ExecRel (Multisig2.mkEnv cfg.self kw.w who pk d host) kw.w.c c r) :
    Multisig2.callK cfg kw who pk d host c =
      some { kw with w := { kw.w with c := r.c, issued := Multisig2.logged r kw.w.issued }
                     queue := Multisig2.enqueue cfg.self pk r kw.queue
                     log := kw.log ++ [.call who pk d host c] } := by
  unfold Multisig2.callK
  rw [Multisig2.exec_ok.mpr h]
  simp only [Multisig2.step, Multisig2.exec_ok.mpr h]

/-- The right number of members confirm: the batch is scheduled, and nothing else happens on the way. -/
theorem confirm_exact {cfg : KCfg} {id : Nat} {st : Stored Member Request} (ml : List Member)
    (evs : List KEv) (kw : KWorld) (cs : List String) (hinv : Multisig2.MInv kw.w.c)
    (hsp : List.Forall₂ (fun m ev => Speaks cfg kw.keys m (.confirm id) ev) ml evs)
    (hg : kw.w.c.book.requests.get id = some st) (hc : kw.w.c.book.confs.get id = some cs)
    (hnd : ml.Nodup) (hm : ∀ m ∈ ml, m ∈ Multisig2.getMembers kw.w.c ∧ m.str ∉ cs)
    (hex : Multisig2.Executable cfg.self kw.w.c st.request) (hne : ml ≠ [])
    (hnum : cs.length + ml.length = max (cs.length + 1) kw.w.c.numConfirmations) :
    (krun cfg kw evs).w.issued = (id, st.request.toBatch cfg.self) :: kw.w.issued := by
  induction ml generalizing evs kw cs with
  | nil => exact absurd rfl hne
  | cons m t ih =>
    cases hsp with
    | cons hs1 hs2 =>
      rename_i ev evs'
      obtain ⟨h1, h3⟩ := hm m List.mem_cons_self
      obtain ⟨who, pk, hact, hev⟩ := speaks_call hs1
      have hlen := hinv.len id cs hc
      have hmod : cs.length % two32 = cs.length := Nat.mod_eq_of_lt (by omega)
      have hcur : Multisig2.currentMember (Multisig2.mkEnv cfg.self kw.w who pk 0 true) kw.w.c = some m :=
        Multisig2.currentMember_ok.mpr ⟨hact, h1⟩
      simp only [krun]
      simp only [List.length_cons] at hnum
      by_cases hn : kw.w.c.numConfirmations ≤ cs.length + 1
      · have ht : t = [] := by
          cases t with
          | nil => rfl
          | cons x y => simp only [List.length_cons] at hnum; omega
        subst ht
        cases hs2
        have hr : Multisig2.ExecRel (Multisig2.mkEnv cfg.self kw.w who pk 0 true) kw.w.c (.confirm id)
            ⟨_, id, _⟩ :=
          .confirm id _ _ rfl (.executed m st cs hcur hg hc h3 (by rw [hmod]; exact hlen)
            (by rw [hmod]; exact hn)
            ((Multisig2.executable_congr
              (s := { kw.w.c with book := kw.w.c.book.remove Member.str id st })
              (s' := kw.w.c) rfl rfl).mpr hex) rfl)
        rw [hev, callK_of hr]
        rfl
      · have hr : Multisig2.ExecRel (Multisig2.mkEnv cfg.self kw.w who pk 0 true) kw.w.c (.confirm id)
            ⟨_, id, _⟩ :=
          .confirm id _ _ rfl (.stored m st cs hcur hg hc h3 (by rw [hmod]; exact hlen)
            (by rw [hmod]; omega))
        have hst := callK_of hr
        have hinv' := Multisig2.minv_step (self := cfg.self) (.call who pk 0 true (.confirm id)) hinv
        simp only [Multisig2.step, Multisig2.exec_ok.mpr hr] at hinv'
        rw [hev, hst, Option.getD_some]
        refine ih evs' _ (cs ++ [m.str]) hinv' hs2 hg ?_ (List.nodup_cons.mp hnd).2 ?_ ?_ ?_ ?_
        · simp [Book.confirm]
        · intro m' hm'
          obtain ⟨g1, g3⟩ := hm m' (List.mem_cons_of_mem _ hm')
          refine ⟨g1, ?_⟩
          intro hmem
          rcases List.mem_append.mp hmem with hmem | hmem
          · exact g3 hmem
          · have := Multisig2.str_inj (List.mem_singleton.mp hmem)
            subst this
            exact (List.nodup_cons.mp hnd).1 hm'
        · exact (Multisig2.executable_congr (s := kw.w.c)
            (s' := { kw.w.c with book := kw.w.c.book.confirm id cs m.str }) rfl rfl).mp hex
        · rintro rfl
          simp only [List.length_nil] at hnum
          omega
        · show (cs ++ [m.str]).length + t.length =
            max ((cs ++ [m.str]).length + 1) kw.w.c.numConfirmations
          simp only [List.length_append, List.length_cons, List.length_nil]
          omega

/-- A member proposes a request and the right number of members confirm it. -/
theorem propose_confirm {cfg : KCfg} {ms : List Member} {n : Nat} {kw : KWorld}
    (h : Multisig2.Reachable cfg.self ms n kw.w) {m0 : Member} {q : Request} {ev0 : KEv}
    (h0 : Speaks cfg kw.keys m0 (.addRequest q) ev0)
    (hm0 : m0 ∈ Multisig2.getMembers kw.w.c) (hr : q.actions.all Multisig2.Action.inRange = true)
    (hroom : Multisig2.numPending kw.w.c m0 < kw.w.c.limit)
    (hids : Multisig2.getRequestNonce kw.w.c + 1 < two32)
    (hex : Multisig2.Executable cfg.self kw.w.c q) {ml : List Member} {evs : List KEv}
    (hsp : List.Forall₂
      (fun m ev => Speaks cfg kw.keys m (.confirm (Multisig2.getRequestNonce kw.w.c)) ev) ml evs)
    (hnd : ml.Nodup) (hm : ∀ m ∈ ml, m ∈ Multisig2.getMembers kw.w.c)
    (hnum : ml.length = max 1 (Multisig2.getNumConfirmations kw.w.c)) :
    (krun cfg kw (ev0 :: evs)).w.issued =
      (Multisig2.getRequestNonce kw.w.c, q.toBatch cfg.self) :: kw.w.issued := by
  obtain ⟨who, pk, rfl, hev⟩ := speaks_call h0
  obtain ⟨r, hx⟩ := (Multisig2.C48_add_request_iff h who pk 0 true q).mpr ⟨rfl, hm0, hr, hroom, hids⟩
  have hr' := Multisig2.exec_ok.mp hx
  have hst := callK_of hr'
  have hinv' := Multisig2.minv_step (self := cfg.self) (.call who pk 0 true (.addRequest q))
    (Multisig2.reachable_minv h)
  simp only [Multisig2.step, hx] at hinv'
  simp only [krun]
  rw [hev, hst, Option.getD_some]
  cases hr' with
  | add m q h1 h2 =>
    refine confirm_exact (id := Multisig2.getRequestNonce kw.w.c) ml evs _ [] hinv' hsp
      (st := ⟨q, m, kw.w.now⟩) ?_ ?_ hnd ?_ ?_ ?_ ?_
    · simp [Multisig2.getRequestNonce, Multisig2.added, Book.add, Multisig2.mkEnv]
    · simp [Multisig2.getRequestNonce, Multisig2.added, Book.add]
    · exact fun m' hm' => ⟨hm m' hm', by simp⟩
    · exact (Multisig2.executable_congr (s := kw.w.c)
        (s' := Multisig2.added (Multisig2.mkEnv cfg.self kw.w who pk 0 true) kw.w.c m q) rfl rfl).mp hex
    · rintro rfl
      simp only [List.length_nil] at hnum
      omega
    · simp only [List.length_nil, Nat.zero_add]
      exact hnum

/-- A batch of welcome calls takes effect. -/
theorem welcome_batch {cfg : WCfg} {r : AccountId} {acts : List Multisig2.Action} {s : Sys}
    (h : Welcome cfg r s acts) :
    batchEvs cfg r s (acts.filterMap (Multisig2.Action.toP cfg.wallet)) =
      some (ordersOf cfg ⟨r, acts⟩) := by
  induction acts generalizing s with
  | nil => rfl
  | cons a t ih =>
    obtain ⟨m, args, d, g, ev, rfl, h2, h3, h4⟩ := h
    have ih' := ih h4
    simp only [ordersOf] at ih'
    simp only [List.filterMap_cons, Multisig2.Action.toP, batchEvs, h2, h3, if_true, ih', ordersOf,
      Option.map_some]

end Verif.Wallet
