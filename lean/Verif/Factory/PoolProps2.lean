import Verif.Factory.PoolProps

/-!
# Staking pool factory: the life of a creation, step by step (C91)

C51 to C53 follow the deposit and the created account. Here: every receipt on the way, exactly, up to the
whitelisting, and that a pool of a whitelisted factory ends up whitelisted.
-/

namespace Verif.PoolFactory

open Verif Verif.Factory

/-- The id of a pool was checked by the accepted call that asked for it. -/
theorem pool_id_valid {cfg : Cfg} {w0 : World} (hs : Started cfg w0) (evs : List Ev) {id : AccountId}
    (h : IsPool (run cfg w0 evs) id) : cfg.validAccountId id = true := by
  obtain ⟨acc, h⟩ := h
  obtain ⟨name, owner, key, fee, ⟨l1, l2, _, ⟨s, effs⟩, hx⟩, rfl, _⟩ := (origin hs evs).2 id acc h
  exact (create_ok.mp hx).1.validId

/-- The whitelist changes only by calls of it. -/
theorem wl_step (cfg : Cfg) (w : World) (ev : Ev) :
    (step cfg w ev).wl = w.wl ∨ ∃ wev, (step cfg w ev).wl = Whitelist.step cfg.validAccountId w.wl wev ∧
      ((ev = .whitelistCall wev ∧ wev.who ≠ cfg.self) ∨
        ∃ i ok c id, ev = .deliver i ok ∧ w.receipts[i]? = some (.whitelist c id) ∧
          wev = ⟨cfg.self, 0, .addPool id⟩) := by
  cases ev with
  | create who att poolId owner key fee => left; simp only [step]; split <;> rfl
  | callCallback who att id d caller => left; rw [callCallback_step]
  | income n => exact .inl rfl
  | epochs n => exact .inl rfl
  | whitelistCall wev =>
    simp only [step]
    split
    · exact .inl rfl
    · rename_i hne
      exact .inr ⟨wev, rfl, .inl ⟨rfl, hne⟩⟩
  | deliver i ok =>
    simp only [step]
    cases hr : w.receipts[i]? with
    | none => exact .inl rfl
    | some r =>
      match r with
      | .create b id d caller => left; simp only [execReceipt]; split <;> rfl
      | .callback id d caller b => left; simp only [execReceipt]; split <;> rfl
      | .whitelist c id =>
        simp only [execReceipt]
        split
        · exact .inr ⟨_, rfl, .inr ⟨i, ok, c, id, rfl, hr, rfl⟩⟩
        · exact .inl rfl

theorem wl_inv {cfg : Cfg} {w0 : World} (hs : Started cfg w0) (evs : List Ev) :
    Whitelist.WInv cfg.validAccountId (run cfg w0 evs).wl := by
  induction evs using List.reverseRecOn with
  | nil =>
    obtain ⟨who, wid, s, bal, epoch, fnd, wl0, wevs, _, hw, rfl⟩ := hs
    simp only [run, List.foldl_nil]
    unfold Whitelist.run
    have := Whitelist.started_winv hw
    induction wevs generalizing wl0 with
    | nil => exact this
    | cons ev t ih =>
      rw [List.foldl_cons]
      have h2 := Whitelist.winv_step this ev
      clear hw ih this
      generalize Whitelist.step cfg.validAccountId wl0 ev = s1 at h2
      induction t generalizing s1 with
      | nil => exact h2
      | cons ev t ih => exact ih _ (Whitelist.winv_step h2 ev)
  | append_singleton l ev ih =>
    rw [run_snoc]
    rcases wl_step cfg (run cfg w0 l) ev with h | ⟨wev, h, _⟩
    · rw [h]; exact ih
    · rw [h]; exact Whitelist.winv_step ih wev

/-- What the factory may do on the whitelist at the moment. -/
def MayAdd (cfg : Cfg) (w : World) : Prop :=
  Whitelist.FactoryIn cfg.validAccountId w.wl cfg.self ∨ cfg.self = w.wl.foundation

/-- **C91 (start).** An accepted creation starts exactly one receipt: create `poolId.factory` with the
attached deposit and the staking pool code, initialize it with the given owner, key and fee, and report to
the factory with the deposit and the caller. The factory keeps nothing. A rejected call changes nothing. -/
theorem C91_start_exact {cfg : Cfg} (w : World) (who : AccountId) (att : Nat) (poolId owner : AccountId)
    (key : PublicKey) (fee : StakingPool.Fee) :
    let w' := step cfg w (.create who att poolId owner key fee)
    let ok := ∃ r, createStakingPool (mkEnv cfg w who att []) w.c poolId owner key fee = .ok r
    (ok → w'.receipts = w.receipts ++
        [.create ⟨subAccount poolId cfg.self, att, .stakingPool, owner, key, fee⟩
          (subAccount poolId cfg.self) att who] ∧
      w'.bal = w.bal ∧ w'.accounts = w.accounts ∧ w'.wl = w.wl ∧ w'.refunded = w.refunded) ∧
    (¬ ok → w' = w) := by
  simp only [step]
  cases hx : createStakingPool (mkEnv cfg w who att []) w.c poolId owner key fee with
  | error m =>
    refine ⟨fun ⟨r, h⟩ => ?_, fun _ => rfl⟩
    cases h
  | ok r =>
    obtain ⟨s', effs⟩ := r
    refine ⟨fun _ => ?_, fun h => absurd ⟨_, rfl⟩ h⟩
    obtain ⟨_, rfl, rfl⟩ := create_ok.mp hx
    refine ⟨rfl, by simp [applyCall, createEff, Eff.out], rfl, rfl, ?_⟩
    simp [applyCall, createEff, Eff.paidTo]

/-- **C91 (creation).** When the receipt is executed, exactly one report to the factory follows, with the
outcome, the deposit and the caller; a failure leaves all accounts as they were. -/
theorem C91_creation_exact {cfg : Cfg} {w0 : World} (hs : Started cfg w0) (evs : List Ev) {i : Nat}
    {b : Batch} {id : AccountId} {d : Nat} {caller : AccountId}
    (hr : (run cfg w0 evs).receipts[i]? = some (.create b id d caller)) (ok : Bool) :
    let w := run cfg w0 evs
    let w' := step cfg w (.deliver i ok)
    let good := ok = true ∧ cfg.existing id = false ∧ cfg.validPublicKey b.key = true
    (good → w'.receipts = w.receipts.eraseIdx i ++ [.callback id d caller true] ∧ w'.bal = w.bal ∧
      IsPool w' id ∧ ∀ id', id' ≠ id → w'.accounts.get id' = w.accounts.get id') ∧
    (¬ good → w'.receipts = w.receipts.eraseIdx i ++ [.callback id d caller false] ∧ w'.bal = w.bal + d ∧
      w'.accounts = w.accounts) ∧
    w'.wl = w.wl ∧ w'.refunded = w.refunded := by
  have h53 := C53_pool_new_accepts hs evs hr
  have h := reach_inv hs evs
  have hno : ¬ IsPool (run cfg w0 evs) id := by
    apply (C52_one_creation_per_id hs evs).2
    exact List.mem_filterMap.mpr ⟨_, List.mem_of_getElem? hr, rfl⟩
  generalize run cfg w0 evs = w at hr h hno h53
  obtain ⟨rfl, rfl, _⟩ := h.receipts _ (List.mem_of_getElem? hr)
  have key : step cfg w (.deliver i ok) =
      execReceipt cfg { w with receipts := w.receipts.eraseIdx i } ok (.create b b.receiver b.deposit caller) := by
    simp only [step, hr]
  have key1 : step cfg w (.deliver i true) =
      execReceipt cfg { w with receipts := w.receipts.eraseIdx i } true
        (.create b b.receiver b.deposit caller) := by
    simp only [step, hr]
  rw [key1] at h53
  simp only [key]
  cases ok with
  | false =>
    simp only [execReceipt, Bool.false_eq_true, if_false, false_and, false_imp_iff, not_false_eq_true,
      true_imp_iff, and_self]
  | true =>
    simp only [execReceipt, if_true, true_and] at h53 ⊢
    cases hd : deploy cfg { w with receipts := w.receipts.eraseIdx i } b caller with
    | some acc =>
      rw [hd] at h53
      have hp : IsPool { w with
          accounts := w.accounts.insert b.receiver acc
          receipts := w.receipts.eraseIdx i ++ [.callback b.receiver b.deposit caller true] } b.receiver :=
        ⟨acc, by simp⟩
      refine ⟨fun _ => ⟨rfl, rfl, hp, fun id' hne => ?_⟩, fun hn => absurd (h53.mp hp) hn, rfl, rfl⟩
      simp only
      exact UMap.get_insert_ne (fun e => hne e.symm)
    | none =>
      rw [hd] at h53
      refine ⟨fun hg => absurd (h53.mpr hg) ?_, fun _ => ⟨rfl, rfl, rfl⟩, rfl, rfl⟩
      rintro ⟨acc, hacc⟩
      exact hno ⟨acc, hacc⟩

/-- **C91 (report of a success).** The factory then does exactly one thing: it asks its whitelist contract
to add the pool. -/
theorem C91_success_exact {cfg : Cfg} {w : World} {i : Nat} {id : AccountId} {d : Nat} {caller : AccountId}
    (hr : w.receipts[i]? = some (.callback id d caller true)) (ok : Bool) :
    step cfg w (.deliver i ok) =
      { w with receipts := w.receipts.eraseIdx i ++ [.whitelist w.c.whitelistId id] } := by
  have hx : onStakingPoolCreate (mkEnv cfg { w with receipts := w.receipts.eraseIdx i } cfg.self 0 [true])
      w.c id d caller = .ok (w.c, [.whitelist w.c.whitelistId id], none) :=
    callback_ok.mpr ⟨rfl, rfl, .inl ⟨rfl, rfl, rfl, rfl⟩⟩
  simp [step, hr, execReceipt, hx, applyCall, Eff.receipt, Eff.out, Eff.paidTo]

/-- **C91 (whitelisting).** When the request is executed, the pool is whitelisted if the factory may add
pools at that moment; nothing else changes on the whitelist, and nothing at all otherwise. -/
theorem C91_whitelisting_exact {cfg : Cfg} {w0 : World} (hs : Started cfg w0) (evs : List Ev) {i : Nat}
    {c id : AccountId} (hr : (run cfg w0 evs).receipts[i]? = some (.whitelist c id)) (ok : Bool) :
    let w := run cfg w0 evs
    let w' := step cfg w (.deliver i ok)
    (∀ p, Whitelist.PoolIn cfg.validAccountId w'.wl p ↔
      Whitelist.PoolIn cfg.validAccountId w.wl p ∨ (p = id ∧ MayAdd cfg w)) ∧
    (∀ f, Whitelist.FactoryIn cfg.validAccountId w'.wl f ↔ Whitelist.FactoryIn cfg.validAccountId w.wl f) ∧
    w'.accounts = w.accounts ∧ w'.bal = w.bal ∧ w'.refunded = w.refunded ∧
    w'.receipts = w.receipts.eraseIdx i := by
  have h := reach_inv hs evs
  have hv : cfg.validAccountId id = true :=
    pool_id_valid hs evs (isPool_iff.mpr (h.receipts _ (List.mem_of_getElem? hr)).2)
  have hi := wl_inv hs evs
  generalize run cfg w0 evs = w at hr h hi
  obtain ⟨hc, _⟩ := h.receipts _ (List.mem_of_getElem? hr)
  have hm : MayAdd cfg w ↔ w.wl.factoryWhitelist.contains cfg.self = true ∨ cfg.self = w.wl.foundation := by
    unfold MayAdd
    rw [Whitelist.factoryIn_iff, Whitelist.contains_iff]
    constructor
    · rintro (h | h)
      · exact .inl h.2
      · exact .inr h
    · rintro (h | h)
      · exact .inl ⟨hi.factories _ h, h⟩
      · exact .inr h
  simp only [step, hr, execReceipt, if_pos hc]
  refine ⟨fun p => ?_, fun f => ?_, trivial, trivial, trivial, trivial⟩
  · rw [Whitelist.step_poolIn, hm]
    constructor
    · rintro (⟨h1, s', b, h2⟩ | ⟨h1, _⟩)
      · cases h1
        exact .inr ⟨rfl, (Whitelist.exec_ok.mp h2).2.2.1⟩
      · exact .inl h1
    · rintro (h1 | ⟨rfl, h1⟩)
      · refine .inr ⟨h1, ?_⟩
        rintro ⟨h2, _⟩
        cases h2
      · exact .inl ⟨rfl, _, _, Whitelist.exec_ok.mpr ⟨rfl, hv, h1, rfl, rfl⟩⟩
  · rw [Whitelist.step_factoryIn]
    simp [Whitelist.Does]

theorem mem_or_eraseIdx {l : List Receipt} {i : Nat} {r : Receipt} (h : r ∈ l) :
    r ∈ l.eraseIdx i ∨ l[i]? = some r := by
  obtain ⟨j, hj⟩ := List.getElem?_of_mem h
  by_cases e : j = i
  · subst e; exact .inr hj
  · exact .inl (List.mem_eraseIdx_iff_getElem?.mpr ⟨j, e, hj⟩)

/-- A receipt stays in flight until it is delivered. -/
theorem receipt_stays {cfg : Cfg} {w : World} {r : Receipt} (h : r ∈ w.receipts) (ev : Ev) :
    r ∈ (step cfg w ev).receipts ∨ ∃ i ok, ev = .deliver i ok ∧ w.receipts[i]? = some r := by
  cases ev with
  | create who att poolId owner key fee =>
    left; simp only [step]; split
    · exact List.mem_append_left _ h
    · exact h
  | callCallback who att id d caller => left; rw [callCallback_step]; exact h
  | income n => exact .inl h
  | epochs n => exact .inl h
  | whitelistCall wev => left; simp only [step]; split <;> exact h
  | deliver i ok =>
    rcases mem_or_eraseIdx (i := i) h with h1 | h1
    · left
      simp only [step]
      cases hr : w.receipts[i]? with
      | none => exact h
      | some q =>
        match q with
        | .create b id d caller =>
          simp only [execReceipt]; split <;> exact List.mem_append_left _ h1
        | .callback id d caller b =>
          simp only [execReceipt]; split
          · exact List.mem_append_left _ h1
          · exact h1
        | .whitelist c id => simp only [execReceipt]; split <;> exact h1
    · exact .inr ⟨i, ok, rfl, h1⟩

/-- A new account comes with the report of its creation. -/
theorem new_pool {cfg : Cfg} {w0 : World} (hs : Started cfg w0) (l : List Ev) (ev : Ev) {id : AccountId}
    (h0 : ¬ IsPool (run cfg w0 l) id) (h1 : IsPool (step cfg (run cfg w0 l) ev) id) :
    ∃ d caller, .callback id d caller true ∈ (step cfg (run cfg w0 l) ev).receipts := by
  cases ev with
  | create who att poolId owner key fee =>
    refine absurd ?_ h0
    simp only [step] at h1; split at h1 <;> exact h1
  | callCallback who att id d caller => rw [callCallback_step] at h1; exact absurd h1 h0
  | income n => exact absurd h1 h0
  | epochs n => exact absurd h1 h0
  | whitelistCall wev =>
    refine absurd ?_ h0
    simp only [step] at h1; split at h1 <;> exact h1
  | deliver i ok =>
    cases hr : (run cfg w0 l).receipts[i]? with
    | none => refine absurd ?_ h0; simp only [step, hr] at h1; exact h1
    | some q =>
      match q, hr with
      | .create b id' d caller, hr =>
        obtain ⟨hg, hb, _⟩ := C91_creation_exact hs l hr ok
        by_cases hgood : ok = true ∧ cfg.existing id' = false ∧ cfg.validPublicKey b.key = true
        · obtain ⟨hrec, _, _, hoth⟩ := hg hgood
          by_cases e : id = id'
          · subst e
            exact ⟨d, caller, by rw [hrec]; simp⟩
          · refine absurd ?_ h0
            obtain ⟨acc, hacc⟩ := h1
            exact ⟨acc, by rw [← hoth id e]; exact hacc⟩
        · refine absurd ?_ h0
          obtain ⟨acc, hacc⟩ := h1
          exact ⟨acc, by rw [← (hb hgood).2.2]; exact hacc⟩
      | .callback id' d caller b, hr =>
        refine absurd ?_ h0
        simp only [step, hr, execReceipt] at h1; split at h1 <;> exact h1
      | .whitelist c id', hr =>
        refine absurd ?_ h0
        simp only [step, hr, execReceipt] at h1; split at h1 <;> exact h1

/-- Nothing about the pool is in flight any more: neither the report of its creation nor the request to
whitelist it. -/
def Settled (w : World) (id : AccountId) : Prop :=
  (∀ d caller, .callback id d caller true ∉ w.receipts) ∧ ∀ c, .whitelist c id ∉ w.receipts

/-- **C91.** In every history in which the factory is entitled to add pools all the time and nobody asks the
whitelist to remove the pool, every pool created by the factory is whitelisted as soon as nothing about it
is in flight. -/
theorem C91_created_pools_get_whitelisted {cfg : Cfg} {w0 : World} (hs : Started cfg w0) (evs : List Ev)
    {id : AccountId} (hp : IsPool (run cfg w0 evs) id) (hq : Settled (run cfg w0 evs) id)
    (hm : ∀ l1 l2, evs = l1 ++ l2 → MayAdd cfg (run cfg w0 l1))
    (hr : ∀ wev, .whitelistCall wev ∈ evs → wev.call ≠ .removePool id) :
    Whitelist.PoolIn cfg.validAccountId (run cfg w0 evs).wl id := by
  have main : IsPool (run cfg w0 evs) id → ¬ Settled (run cfg w0 evs) id ∨
      Whitelist.PoolIn cfg.validAccountId (run cfg w0 evs).wl id := by
    clear hp hq
    induction evs using List.reverseRecOn with
    | nil =>
      obtain ⟨who, wid, s, bal, epoch, fnd, wl0, wevs, _, hw, rfl⟩ := hs
      rintro ⟨acc, h⟩
      simp [run] at h
    | append_singleton l ev ih =>
      have ih' := ih (fun l1 l2 h => hm l1 (l2 ++ [ev]) (by rw [h, List.append_assoc]))
        (fun wev h => hr wev (List.mem_append_left _ h))
      have hml := hm l [ev] rfl
      have hev : ∀ wev, ev = .whitelistCall wev → wev.call ≠ .removePool id :=
        fun wev h => hr wev (by rw [h]; simp)
      rw [run_snoc]
      clear ih
      intro hp
      -- being whitelisted persists
      have stay : Whitelist.PoolIn cfg.validAccountId (run cfg w0 l).wl id →
          Whitelist.PoolIn cfg.validAccountId (step cfg (run cfg w0 l) ev).wl id := by
        intro h
        rcases wl_step cfg (run cfg w0 l) ev with h2 | ⟨wev, h2, h3⟩
        · rw [h2]; exact h
        · rw [h2, Whitelist.step_poolIn]
          refine .inr ⟨h, ?_⟩
          rintro ⟨h4, _⟩
          rcases h3 with ⟨h3, _⟩ | ⟨_, _, _, _, _, _, rfl⟩
          · exact hev wev h3 h4
          · cases h4
      by_cases hpl : IsPool (run cfg w0 l) id
      · rcases ih' hpl with hns | hin
        · -- something is in flight
          have : (∃ d caller, Receipt.callback id d caller true ∈ (run cfg w0 l).receipts) ∨
              ∃ c, Receipt.whitelist c id ∈ (run cfg w0 l).receipts := by
            by_contra hcon
            simp only [not_or, not_exists] at hcon
            exact hns hcon
          rcases this with ⟨d, caller, h⟩ | ⟨c, h⟩
          · rcases receipt_stays (cfg := cfg) h ev with h | ⟨i, ok, rfl, h⟩
            · exact .inl fun hs => hs.1 _ _ h
            · left
              rw [C91_success_exact h ok]
              exact fun hs => hs.2 (run cfg w0 l).c.whitelistId (by simp)
          · rcases receipt_stays (cfg := cfg) h ev with h | ⟨i, ok, rfl, h⟩
            · exact .inl fun hs => hs.2 _ h
            · exact .inr (((C91_whitelisting_exact hs l h ok).1 id).mpr (.inr ⟨rfl, hml⟩))
        · exact .inr (stay hin)
      · obtain ⟨d, caller, h⟩ := new_pool hs l ev hpl hp
        exact .inl fun hs => hs.1 _ _ h
  exact (main hp).resolve_left (fun h => h hq)

/-- The receipts of `alice`'s creation, one after the other. -/
example : (∃ b, (run demoCfg demo0 demo1).receipts[0]? =
      some (.create b "p.factory" minAttachedBalance "alice")) ∧
    (run demoCfg demo0 (demo1 ++ [.deliver 0 true])).receipts[2]? =
      some (.callback "p.factory" minAttachedBalance "alice" true) ∧
    (run demoCfg demo0 (demo1 ++ [.deliver 0 true, .deliver 2 true])).receipts[2]? =
      some (.whitelist "wl" "p.factory") := ⟨⟨_, rfl⟩, by with_unfolding_all rfl, by with_unfolding_all rfl⟩

/-- `alice`'s pool: created, reported, whitelisted; the factory was entitled all the time. -/
example : Settled (run demoCfg demo0 demo2) "p.factory" ∧ IsPool (run demoCfg demo0 demo2) "p.factory" ∧
    (∀ l1 l2, demo2 = l1 ++ l2 → MayAdd demoCfg (run demoCfg demo0 l1)) ∧
    (∀ wev, .whitelistCall wev ∈ demo2 → wev.call ≠ .removePool "p.factory") := by
  refine ⟨⟨fun d c h => ?_, fun c h => ?_⟩, ?_, fun l1 l2 h => ?_, fun wev h => ?_⟩
  · have : (run demoCfg demo0 demo2).receipts.length = 0 := by decide +kernel
    rw [List.length_eq_zero_iff.mp this] at h; cases h
  · have : (run demoCfg demo0 demo2).receipts.length = 0 := by decide +kernel
    rw [List.length_eq_zero_iff.mp this] at h; cases h
  · rw [isPool_iff]; decide +kernel
  · have hl : l1 = demo2.take l1.length := by rw [h]; simp
    have hk : l1.length ≤ 10 := by
      have := congrArg List.length h
      simp [demo2, demo1] at this; omega
    rw [hl]
    left
    rw [Whitelist.factoryIn_iff]
    generalize l1.length = k at hk
    revert k
    decide +kernel
  · simp [demo2, demo1] at h

end Verif.PoolFactory
