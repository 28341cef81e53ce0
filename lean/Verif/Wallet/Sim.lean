import Verif.Wallet.Model
import Verif.Multisig2.Props4
import Verif.System.Props

/-! # Lemmas about the wallet in the system -/

namespace Verif.Wallet

open Verif
open Verif.System (Sys)
open Verif.Multisig2 (KWorld KCfg KEv PAction Batch KStarted kstep krun)

/-! ## Histories -/

theorem wrun_append (cfg : WCfg) (w : WWorld) (l1 l2 : List WEv) :
    wrun cfg w (l1 ++ l2) = wrun cfg (wrun cfg w l1) l2 := by
  induction l1 generalizing w with
  | nil => rfl
  | cons h t ih => exact ih _

theorem trace_append (cfg : WCfg) (w : WWorld) (l1 l2 : List WEv) :
    trace cfg w (l1 ++ l2) = trace cfg w l1 ++ trace cfg (wrun cfg w l1) l2 := by
  induction l1 generalizing w with
  | nil => rfl
  | cons h t ih =>
    simp only [List.cons_append, trace, wrun, List.append_assoc]
    rw [ih]

theorem msEvs_append (l1 l2 : List WEv) : msEvs (l1 ++ l2) = msEvs l1 ++ msEvs l2 := by
  induction l1 with
  | nil => rfl
  | cons h t ih => cases h <;> simp [msEvs, ih]

/-- The system is driven by the trace. -/
theorem wrun_sys (cfg : WCfg) (w : WWorld) (evs : List WEv) :
    (wrun cfg w evs).sys = System.run cfg.sys w.sys (trace cfg w evs) := by
  induction evs generalizing w with
  | nil => rfl
  | cons h t ih =>
    simp only [wrun, trace]
    rw [ih, System.run_append]
    rfl

/-- The wallet is driven by its events. -/
theorem wrun_ms (cfg : WCfg) (w : WWorld) (evs : List WEv) :
    (wrun cfg w evs).ms = krun cfg.ms w.ms (msEvs evs) := by
  induction evs generalizing w with
  | nil => rfl
  | cons h t ih =>
    simp only [wrun]
    rw [ih]
    cases h <;> rfl

/-! ## What receipts of the wallet do -/

theorem order_byWallet {cfg : WCfg} {r : AccountId} {m : String} {a : Multisig2.Bytes} {d : Nat}
    {ev : System.Ev} (h : order cfg r m a d = some ev) : byWallet cfg ev = true := by
  unfold order at h
  (repeat' split at h) <;>
  · obtain ⟨c, _, rfl⟩ := Option.map_eq_some_iff.mp h
    simp [byWallet]

/-- The calls that the actions of a batch are. -/
def batchOrders (cfg : WCfg) (receiver : AccountId) (acts : List PAction) : List System.Ev :=
  acts.filterMap (fun a => match a with
    | .functionCall m args d _ => order cfg receiver m args d
    | _ => none)

theorem payment_filter (cfg : WCfg) (s : Sys) (r : AccountId) (x : Nat) :
    (payment cfg s r x).filter (byWallet cfg) = [] := by
  unfold payment
  (repeat' split) <;> simp [byWallet]

theorem batchEvs_filter {cfg : WCfg} {r : AccountId} {acts : List PAction} {s : Sys}
    {l : List System.Ev} (h : batchEvs cfg r s acts = some l) :
    l.filter (byWallet cfg) = batchOrders cfg r acts := by
  induction acts generalizing s l with
  | nil => cases h; rfl
  | cons a t ih =>
    cases a with
    | transfer x =>
      obtain ⟨l', h', rfl⟩ := Option.map_eq_some_iff.mp h
      rw [List.filter_append, payment_filter, ih h']
      rfl
    | functionCall m a d g =>
      simp only [batchEvs] at h
      split at h
      · cases h
      · rename_i ev hev
        split at h
        · obtain ⟨l', h', rfl⟩ := Option.map_eq_some_iff.mp h
          rw [List.filter_cons_of_pos (order_byWallet hev), ih h']
          simp [batchOrders, hev]
        · cases h
    | _ => cases h

theorem batchOrders_toBatch (cfg : WCfg) (q : Multisig2.Request) :
    batchOrders cfg (q.toBatch cfg.wallet).receiver (q.toBatch cfg.wallet).actions = ordersOf cfg q := by
  unfold batchOrders ordersOf Multisig2.Request.toBatch
  rw [List.filterMap_filterMap]
  congr 1
  funext a
  cases a with
  | addMember m => cases m <;> rfl
  | deleteMember m => cases m <;> rfl
  | addKey k p => cases p <;> rfl
  | _ => rfl

/-! ## Where batches come from -/

theorem issued_suffix {cfg : KCfg} (kw : KWorld) (ev : KEv) :
    kw.w.issued <:+ (kstep cfg kw ev).w.issued := by
  refine Multisig2.kstep_induct (fun kw' => kw.w.issued <:+ kw'.w.issued) (fun kw q _ h => h) ?_
    (fun kw dt h => h) kw ev (fun _ _ _ _ _ _ _ h => h) (fun _ _ _ _ _ h => h) (List.suffix_refl _)
  intro kw1 kw' who pk d host c hc h
  obtain ⟨r, _, rfl, hst⟩ := Multisig2.callK_some hc
  refine h.trans ?_
  show _ <:+ Multisig2.logged r kw1.w.issued
  unfold Multisig2.logged
  cases r.batch with
  | none => exact List.suffix_refl _
  | some b => exact List.suffix_cons _ _

theorem newOut_append (self : AccountId) (l old : List (Nat × Batch)) :
    newOut self old (l ++ old) = l.reverse.filter (fun x => x.2.receiver ≠ self) := by
  unfold newOut
  rw [List.length_append, Nat.add_sub_cancel, List.take_left]

/-- A batch scheduled by the wallet belongs to an approved request. -/
theorem issued_approved {cfg : KCfg} {ms : List Multisig2.Member} {n : Nat}
    {keys0 : UMap PublicKey Perm} {kw0 : KWorld} (hs : KStarted cfg ms n keys0 kw0) (evs : List KEv)
    {id : Nat} {b : Batch} (h : (id, b) ∈ (krun cfg kw0 evs).w.issued) :
    ∃ q, b = q.toBatch cfg.self ∧ Approved cfg.self kw0.w (krun cfg kw0 evs).log id q := by
  rw [Multisig2.log_run hs evs] at h
  obtain ⟨l1, ev, l2, g1, g2⟩ := Multisig2.issued_at hs.started _ h
  obtain ⟨a1, e1, a2, m0, q0, g3, g4, g5, g6⟩ :=
    Multisig2.C46_enough_distinct_members hs.started l1 ev g2
  obtain ⟨m1, q1, ⟨b1, f1, b2, g7, g8⟩, g9, g10⟩ :=
    Multisig2.C42_executed_as_requested hs.started (l1 ++ [ev])
      (id := id) (b := b) (by rw [Multisig2.run_snoc, g2]; exact List.mem_cons_self)
  obtain ⟨rfl, rfl, rfl⟩ := Multisig2.adds_unique (g3.symm.trans g7) g4 g8
  obtain ⟨rfl, rfl⟩ := Multisig2.adds_same g4 g8
  refine ⟨q0, ?_, l1, ev, l2, a1, e1, a2, m0, g1, g3, g4, g5, g6⟩
  cases b
  exact congrArg₂ Batch.mk g9 g10

theorem issued_nodup {cfg : KCfg} {ms : List Multisig2.Member} {n : Nat}
    {keys0 : UMap PublicKey Perm} {kw0 : KWorld} (hs : KStarted cfg ms n keys0 kw0) (evs : List KEv) :
    ((krun cfg kw0 evs).w.issued.map Prod.fst).Nodup := by
  rw [Multisig2.log_run hs evs]
  exact Multisig2.C42_executed_at_most_once ⟨_, _, hs.started, rfl⟩

/-- The batches that arrived and took effect (`D`), and those under way: each was scheduled by the
wallet, and no two have the same id. -/
structure Flow (cfg : WCfg) (w0 : WWorld) (evs : List WEv) (D : List (Nat × Batch)) : Prop where
  acts : (trace cfg w0 evs).filter (byWallet cfg) =
    D.flatMap (fun x => batchOrders cfg x.2.receiver x.2.actions)
  nodup : (D.map Prod.fst ++ (wrun cfg w0 evs).out.map Prod.fst).Nodup
  mem : ∀ x ∈ D ++ (wrun cfg w0 evs).out, x ∈ (wrun cfg w0 evs).ms.w.issued

/-- The event is a transaction to another account signed with a key that permits it. -/
def Direct (cfg : WCfg) (w : WWorld) : WEv → Prop
  | .direct pk r acts => ∃ p, w.ms.keys.get pk = some p ∧ r ≠ cfg.wallet ∧
      Multisig2.permAllows r p acts = true
  | _ => False

theorem flow_run {cfg : WCfg} {ms : List Multisig2.Member} {n : Nat} {keys0 : UMap PublicKey Perm}
    {w0 : WWorld} (hs : KStarted cfg.ms ms n keys0 w0.ms) (ho : w0.out = []) (evs : List WEv)
    (hd : ∀ l1 ev l2, evs = l1 ++ ev :: l2 → ¬ Direct cfg (wrun cfg w0 l1) ev) :
    ∃ D, Flow cfg w0 evs D := by
  induction evs using List.reverseRecOn with
  | nil =>
    refine ⟨[], rfl, ?_, ?_⟩
    · simp [wrun, ho]
    · simp [wrun, ho]
  | append_singleton l ev ih =>
    obtain ⟨D, h1, h2, h3⟩ := ih (fun l1 e l2 h => hd l1 e (l2 ++ [ev]) (by rw [h]; simp))
    have hdl := hd l ev [] rfl
    have hnd := issued_nodup hs (msEvs (l ++ [ev]))
    rw [← wrun_ms, wrun_append] at hnd
    have htr : trace cfg w0 (l ++ [ev]) = trace cfg w0 l ++ effects cfg (wrun cfg w0 l) ev := by
      rw [trace_append]; simp [trace]
    have hrun : wrun cfg w0 (l ++ [ev]) = wstep cfg (wrun cfg w0 l) ev := by
      rw [wrun_append]; rfl
    have hsame : ∀ (_ : (effects cfg (wrun cfg w0 l) ev).filter (byWallet cfg) = [])
        (_ : (wstep cfg (wrun cfg w0 l) ev).ms = (wrun cfg w0 l).ms)
        (_ : (wstep cfg (wrun cfg w0 l) ev).out.Sublist (wrun cfg w0 l).out),
        ∃ D, Flow cfg w0 (l ++ [ev]) D := by
      intro g1 g2 g3
      refine ⟨D, ?_, ?_, ?_⟩
      · rw [htr, List.filter_append, g1, List.append_nil, h1]
      · rw [hrun]
        exact h2.sublist (List.Sublist.append (List.Sublist.refl _) (g3.map _))
      · intro x hx
        rw [hrun] at hx ⊢
        rw [g2]
        refine h3 x ?_
        rcases List.mem_append.mp hx with hx | hx
        · exact List.mem_append_left _ hx
        · exact List.mem_append_right _ (g3.subset hx)
    cases ev with
    | sys e =>
      refine hsame ?_ rfl (List.Sublist.refl _)
      simp only [effects]
      split
      · rfl
      · rename_i hb
        simp [hb]
    | direct pk r acts =>
      refine hsame ?_ rfl (List.Sublist.refl _)
      simp only [effects]
      split
      · rename_i p hp
        split
        · rename_i hc
          exact absurd ⟨p, hp, hc⟩ hdl
        · rfl
      · rfl
    | deliver i hostOk =>
      cases hi : (wrun cfg w0 l).out[i]? with
      | none =>
        refine hsame ?_ rfl (List.eraseIdx_sublist _ _)
        simp [effects, hi]
      | some x =>
        by_cases hk : hostOk = true
        · cases hb : batchEvs cfg x.2.receiver (wrun cfg w0 l).sys x.2.actions with
          | none =>
            refine hsame ?_ rfl (List.eraseIdx_sublist _ _)
            simp [effects, hi, hb]
          | some es =>
            have hp : ((wrun cfg w0 l).out).Perm (x :: (wrun cfg w0 l).out.eraseIdx i) := by
              obtain ⟨hlt, hx⟩ := List.getElem?_eq_some_iff.mp hi
              rw [← hx]
              exact (List.getElem_cons_eraseIdx_perm hlt).symm
            refine ⟨D ++ [x], ?_, ?_, ?_⟩
            · rw [htr, List.filter_append, h1, List.flatMap_append]
              simp [effects, hi, hk, hb, batchEvs_filter hb]
            · rw [hrun]
              show ((D ++ [x]).map Prod.fst ++ ((wrun cfg w0 l).out.eraseIdx i).map Prod.fst).Nodup
              rw [List.map_append, List.append_assoc]
              refine (List.Perm.nodup_iff ?_).mp h2
              exact (hp.map Prod.fst).append_left _
            · intro y hy
              rw [hrun] at hy ⊢
              refine h3 y ?_
              have hy' : y ∈ (D ++ [x]) ++ (wrun cfg w0 l).out.eraseIdx i := hy
              rw [List.append_assoc] at hy'
              rcases List.mem_append.mp hy' with hy' | hy'
              · exact List.mem_append_left _ hy'
              · exact List.mem_append_right _ (hp.symm.subset hy')
        · refine hsame ?_ rfl (List.eraseIdx_sublist _ _)
          simp [effects, hi, hk]
    | ms e =>
      obtain ⟨l0, hl0⟩ := issued_suffix (cfg := cfg.ms) (wrun cfg w0 l).ms e
      have hout : (wstep cfg (wrun cfg w0 l) (.ms e)).out = (wrun cfg w0 l).out ++
          l0.reverse.filter (fun x => x.2.receiver ≠ cfg.wallet) := by
        show (wrun cfg w0 l).out ++ newOut _ _ _ = _
        rw [← hl0, newOut_append]
      have hiss : (wstep cfg (wrun cfg w0 l) (.ms e)).ms.w.issued = l0 ++ (wrun cfg w0 l).ms.w.issued :=
        hl0.symm
      have hnd' : (l0.map Prod.fst ++ (wrun cfg w0 l).ms.w.issued.map Prod.fst).Nodup := by
        have : ((wstep cfg (wrun cfg w0 l) (.ms e)).ms.w.issued.map Prod.fst).Nodup := hnd
        rw [hiss, List.map_append] at this
        exact this
      refine ⟨D, ?_, ?_, ?_⟩
      · rw [htr, h1.symm]; simp [effects]
      · rw [hrun, hout, List.map_append, ← List.append_assoc]
        obtain ⟨n1, n2, n3⟩ := List.nodup_append.mp hnd'
        refine List.nodup_append.mpr ⟨h2, ?_, ?_⟩
        · refine List.Nodup.sublist (List.filter_sublist.map _) ?_
          rw [List.map_reverse]
          exact List.nodup_reverse.mpr n1
        · intro a ha b hb
          rw [← List.map_append] at ha
          obtain ⟨x, hx, rfl⟩ := List.mem_map.mp ha
          obtain ⟨y, hy, rfl⟩ := List.mem_map.mp hb
          have hy' : y ∈ l0 := List.mem_reverse.mp (List.mem_filter.mp hy).1
          exact (n3 _ (List.mem_map_of_mem hy') _ (List.mem_map_of_mem (h3 x hx))).symm
      · intro x hx
        rw [hrun] at hx ⊢
        rw [hout, ← List.append_assoc] at hx
        rw [hiss]
        rcases List.mem_append.mp hx with hx | hx
        · exact List.mem_append_right _ (h3 x hx)
        · exact List.mem_append_left _ (List.mem_reverse.mp (List.mem_filter.mp hx).1)

/-- From batches to requests. -/
theorem requests_of {cfg : WCfg} {P : Nat → Multisig2.Request → Prop} (D : List (Nat × Batch))
    (h : ∀ x ∈ D, ∃ q, x.2 = Multisig2.Request.toBatch cfg.wallet q ∧ P x.1 q) :
    ∃ E : List (Nat × Multisig2.Request), E.map Prod.fst = D.map Prod.fst ∧
      E.flatMap (fun x => ordersOf cfg x.2) =
        D.flatMap (fun x => batchOrders cfg x.2.receiver x.2.actions) ∧ ∀ x ∈ E, P x.1 x.2 := by
  induction D with
  | nil => exact ⟨[], rfl, rfl, by simp⟩
  | cons x t ih =>
    obtain ⟨E, h1, h2, h3⟩ := ih (fun y hy => h y (List.mem_cons_of_mem _ hy))
    obtain ⟨q, g1, g2⟩ := h x List.mem_cons_self
    refine ⟨(x.1, q) :: E, by simp [h1], ?_, ?_⟩
    · simp only [List.flatMap_cons, h2]
      rw [g1, batchOrders_toBatch]
    · intro y hy
      rcases List.mem_cons.mp hy with rfl | hy
      · exact g2
      · exact h3 y hy

/-! ## Keys -/

theorem ownKeys_run {cfg : WCfg} {ms : List Multisig2.Member} {n : Nat} {keys0 : UMap PublicKey Perm}
    {kw0 : KWorld} (hs : KStarted cfg.ms ms n keys0 kw0) (evs : List KEv)
    (ho : OwnKeys cfg keys0 (krun cfg.ms kw0 evs).w.issued) {k : PublicKey} {p : Perm}
    (hk : (krun cfg.ms kw0 evs).keys.get k = some p) : ∃ names, p = .fn cfg.wallet names := by
  have hfull : ∀ l1 l2, evs = l1 ++ l2 → ∀ k, (krun cfg.ms kw0 l1).keys.get k ≠ some .full := by
    rintro l1 l2 rfl k
    refine Multisig2.C97_no_full_access hs l1 ?_ ?_ k
    · intro k hk
      obtain ⟨_, h⟩ := ho.initial k _ hk
      cases h
    · intro id b k hi
      exact ho.full id b k (Multisig2.issued_prefix hi)
  rcases (Multisig2.source_run hs evs).2 k p hk with h | ⟨_, h2⟩ | ⟨id, b, a, h1, h2, h3, h4⟩ |
    ⟨l1, k', acts, hosts, l2, a, h1, h2, h3, h4⟩
  · exact ho.initial k p h
  · exact ⟨_, h2⟩
  · cases a with
    | addAccessKey k1 al r names =>
      cases h4
      have := ho.access id b k al r names h1 h3
      subst this
      exact ⟨names, rfl⟩
    | addFullAccessKey k1 =>
      cases h4
      exact absurd h3 (ho.full id b k h1)
    | _ => cases h4
  · exact absurd h2 (hfull l1 _ h1 k')

theorem OwnKeys.anti {cfg : WCfg} {keys0 : UMap PublicKey Perm} {i1 i2 : List (Nat × Batch)}
    (hi : ∀ x, x ∈ i1 → x ∈ i2) (h : OwnKeys cfg keys0 i2) : OwnKeys cfg keys0 i1 :=
  ⟨h.initial, fun id b k hb => h.full id b k (hi _ hb),
    fun id b k al r names hb => h.access id b k al r names (hi _ hb)⟩

theorem no_direct {cfg : WCfg} {ms : List Multisig2.Member} {n : Nat} {keys0 : UMap PublicKey Perm}
    {w0 : WWorld} (hs : KStarted cfg.ms ms n keys0 w0.ms) (evs : List WEv)
    (hk : OwnKeys cfg keys0 (wrun cfg w0 evs).ms.w.issued) (l1 : List WEv) (ev : WEv) (l2 : List WEv)
    (h : evs = l1 ++ ev :: l2) : ¬ Direct cfg (wrun cfg w0 l1) ev := by
  subst h
  cases ev with
  | direct pk r acts =>
    rintro ⟨p, h1, h2, h3⟩
    rw [wrun_ms] at h1
    rw [wrun_ms, msEvs_append] at hk
    obtain ⟨names, rfl⟩ := ownKeys_run hs (msEvs l1)
      (hk.anti (fun x hx => Multisig2.issued_prefix hx)) h1
    unfold Multisig2.permAllows at h3
    split at h3
    · rename_i he; cases he
    · rename_i he
      simp only [Perm.permits, Bool.and_eq_true, decide_eq_true_eq] at h3
      exact h2 h3.1.1.symm
    · cases h3
  | _ => exact id

end Verif.Wallet
