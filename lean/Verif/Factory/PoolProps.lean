import Verif.Factory.PoolLemmas
import Verif.Whitelist.Props

/-!
# Staking pool factory: property theorems (C51, C52, C53, C66)
-/

namespace Verif.PoolFactory

open Verif Verif.Factory

/-! ## Vocabulary -/

/-- The id of a creation that has neither succeeded nor been rolled back yet. -/
def Receipt.unresolved : Receipt → Option AccountId
  | .create _ id _ _ => some id
  | .callback id _ _ false => some id
  | _ => none

/-- The ids of all such creations. -/
def unresolved (w : World) : List AccountId := w.receipts.filterMap Receipt.unresolved

/-- The deposits of unfinished creations of caller `a`: (deposit, caller) of each. -/
def Receipt.pending : Receipt → Option (Nat × AccountId)
  | .create b _ _ c => some (b.deposit, c)
  | .callback _ d c false => some (d, c)
  | _ => none

/-- Total deposit of unfinished creations of `a`. -/
def pendingOf (w : World) (a : AccountId) : Nat :=
  (((w.receipts.filterMap Receipt.pending).filter (fun p => p.2 = a)).map Prod.fst).sum

/-- Total deposit on the pools created for `a`. -/
def onPools (w : World) (a : AccountId) : Nat :=
  (((w.accounts.entries.map Prod.snd).filter (fun acc => acc.caller = a)).map
    (fun acc => acc.pool.liquid)).sum

/-- The account was created by the factory. -/
def IsPool (w : World) (id : AccountId) : Prop := ∃ acc, w.accounts.get id = some acc

/-! ## Helper lemmas -/

theorem isPool_iff {w : World} {id : AccountId} : IsPool w id ↔ w.accounts.contains id = true := by
  unfold IsPool
  rw [contains_eq]
  cases w.accounts.get id <;> simp

theorem owed_eq {cfg : Cfg} {w : World} (h : ∀ r ∈ w.receipts, ReceiptOk cfg w r) (a : AccountId) :
    rsum (Receipt.owed a) w.receipts = pendingOf w a := by
  unfold pendingOf
  generalize w.receipts = l at h
  induction l with
  | nil => rfl
  | cons r t ih =>
    have ih' := ih (fun q hq => h q (List.mem_cons_of_mem _ hq))
    have hr := h r (by simp)
    simp only [rsum, List.map_cons, List.sum_cons] at ih' ⊢
    rw [ih']
    match r, hr with
    | .create b id d c, hr =>
      obtain ⟨_, rfl, _⟩ := hr
      by_cases hc : c = a <;> simp [Receipt.owed, Receipt.pending, hc]
    | .callback id d c true, _ => simp [Receipt.owed, Receipt.pending, List.filterMap_cons]
    | .callback id d c false, _ => by_cases hc : c = a <;> simp [Receipt.owed, Receipt.pending, hc]
    | .whitelist c id, _ => simp [Receipt.owed, Receipt.pending, List.filterMap_cons]

theorem onPools_eq {cfg : Cfg} {base : Nat} {w : World} (h : FInv cfg base w) (a : AccountId) :
    w.accounts.sum (fun _ acc => if acc.caller = a then acc.deposit else 0) = onPools w a := by
  have hd : ∀ p ∈ w.accounts.entries, p.2.pool.liquid = p.2.deposit := by
    rintro ⟨id, acc⟩ hp
    exact (h.accounts id acc (UMap.get_eq_some.mpr hp)).deposit.1
  unfold onPools UMap.sum
  generalize w.accounts.entries = l at hd
  induction l with
  | nil => rfl
  | cons p t ih =>
    have ih' := ih (fun q hq => hd q (List.mem_cons_of_mem _ hq))
    have hp := hd p (by simp)
    simp only [List.map_cons, List.sum_cons]
    rw [ih']
    by_cases hc : p.2.caller = a <;> simp [hc, hp]

theorem open_count (l : List Receipt) (id : AccountId) :
    rsum (Receipt.open id) l = (l.filterMap Receipt.unresolved).count id := by
  induction l with
  | nil => rfl
  | cons r t ih =>
    simp only [rsum, List.map_cons, List.sum_cons] at ih ⊢
    rw [ih]
    match r with
    | .create b i d c =>
      by_cases hc : i = id <;> simp [Receipt.open, Receipt.unresolved, hc]; omega
    | .callback i d c true => simp [Receipt.open, Receipt.unresolved, List.filterMap_cons]
    | .callback i d c false =>
      by_cases hc : i = id <;> simp [Receipt.open, Receipt.unresolved, hc]; omega
    | .whitelist c i => simp [Receipt.open, Receipt.unresolved, List.filterMap_cons]

theorem exists_name {parent id : AccountId} (h : directSub parent id = true) :
    ∃ name, id = subAccount name parent ∧ '.' ∉ name.toList := by
  simp only [directSub, Bool.and_eq_true, decide_eq_true_eq] at h
  obtain ⟨h1, h2⟩ := h
  refine ⟨String.ofList (id.toList.take (id.toList.length - (parent.toList.length + 1))), ?_, ?_⟩
  · apply String.toList_inj.mp
    unfold subAccount
    simp only [String.toList_append, String.toList_ofList, List.append_assoc]
    have : (".".toList ++ parent.toList) = '.' :: parent.toList := rfl
    rw [this, ← h1, List.take_append_drop]
  · rw [String.toList_ofList]; exact h2

theorem run_snoc (cfg : Cfg) (w : World) (l : List Ev) (ev : Ev) :
    run cfg w (l ++ [ev]) = step cfg (run cfg w l) ev := by simp [run]

theorem reach_inv {cfg : Cfg} {w0 : World} (hs : Started cfg w0) (evs : List Ev) :
    FInv cfg (w0.bal + income evs) (run cfg w0 evs) := finv_run (started_finv hs) evs

/-- The accounts only grow. -/
theorem accounts_step (cfg : Cfg) (w : World) (ev : Ev) (id : AccountId) (acc : Created)
    (h : w.accounts.get id = some acc) : (step cfg w ev).accounts.get id = some acc := by
  cases ev with
  | create who att poolId owner key fee => simp only [step]; split <;> exact h
  | callCallback who att i d caller => rw [callCallback_step]; exact h
  | deliver i ok =>
    simp only [step]
    cases hr : w.receipts[i]? with
    | none => exact h
    | some r =>
      match r with
      | .create b j d caller =>
        simp only [execReceipt]
        cases hd : (if ok then deploy cfg { w with receipts := w.receipts.eraseIdx i } b caller else none) with
        | none => exact h
        | some acc' =>
          have hd' : deploy cfg { w with receipts := w.receipts.eraseIdx i } b caller = some acc' := by
            cases ok with
            | true => exact hd
            | false => cases hd
          have hn := (deploy_some hd').2.2.1
          have hne : b.receiver ≠ id := by
            rintro rfl
            simp only [contains_eq, h] at hn
            cases hn
          simp only
          rw [UMap.get_insert_ne hne]; exact h
      | .callback j d caller b => simp only [execReceipt]; split <;> exact h
      | .whitelist c j => simp only [execReceipt]; split <;> exact h
  | whitelistCall ev => simp only [step]; split <;> exact h
  | income n => exact h
  | epochs n => exact h

theorem accounts_run (cfg : Cfg) (w : World) (evs : List Ev) (id : AccountId) (acc : Created)
    (h : w.accounts.get id = some acc) : (run cfg w evs).accounts.get id = some acc := by
  unfold run
  induction evs generalizing w with
  | nil => exact h
  | cons ev t ih => exact ih _ (accounts_step cfg w ev id acc h)

/-- In the history `evs`, `who` called `create_staking_pool` with deposit `att` and the call was
accepted. -/
def Asked (cfg : Cfg) (w0 : World) (evs : List Ev) (who : AccountId) (att : Nat) (poolId owner : AccountId)
    (key : PublicKey) (fee : StakingPool.Fee) : Prop :=
  ∃ l1 l2, evs = l1 ++ .create who att poolId owner key fee :: l2 ∧
    ∃ r, createStakingPool (mkEnv cfg (run cfg w0 l1) who att []) (run cfg w0 l1).c poolId owner key fee = .ok r

theorem Asked.snoc {cfg : Cfg} {w0 : World} {l : List Ev} {who : AccountId} {att : Nat}
    {poolId owner : AccountId} {key : PublicKey} {fee : StakingPool.Fee}
    (h : Asked cfg w0 l who att poolId owner key fee) (ev : Ev) :
    Asked cfg w0 (l ++ [ev]) who att poolId owner key fee := by
  obtain ⟨l1, l2, rfl, hr⟩ := h
  exact ⟨l1, l2 ++ [ev], by simp, hr⟩

/-- Creation receipts and created accounts come from accepted calls. -/
theorem origin {cfg : Cfg} {w0 : World} (hs : Started cfg w0) (evs : List Ev) :
    (∀ b id d caller, .create b id d caller ∈ (run cfg w0 evs).receipts →
      ∃ name, Asked cfg w0 evs caller d name b.owner b.key b.fee ∧ id = subAccount name cfg.self) ∧
    (∀ id acc, (run cfg w0 evs).accounts.get id = some acc →
      ∃ name owner key fee, Asked cfg w0 evs acc.caller acc.deposit name owner key fee ∧
        id = subAccount name cfg.self ∧ acc.pool.pool.ownerId = owner ∧
        acc.pool.pool.stakePublicKey = key ∧ acc.pool.pool.rewardFee = fee) := by
  induction evs using List.reverseRecOn with
  | nil =>
    obtain ⟨who, wid, s, bal, epoch, fnd, wl0, wevs, hn, _, rfl⟩ := hs
    refine ⟨fun b id d caller h => ?_, fun id acc h => ?_⟩
    · simp [run] at h
    · simp [run] at h
  | append_singleton l ev ih =>
    rw [run_snoc]
    have hi := reach_inv hs l
    obtain ⟨ih1, ih2⟩ := ih
    have keep1 : ∀ b id d caller, .create b id d caller ∈ (run cfg w0 l).receipts →
        ∃ name, Asked cfg w0 (l ++ [ev]) caller d name b.owner b.key b.fee ∧ id = subAccount name cfg.self := by
      intro b id d caller h
      obtain ⟨a, h1, h2⟩ := ih1 b id d caller h
      exact ⟨a, h1.snoc ev, h2⟩
    have keep2 : ∀ id acc, (run cfg w0 l).accounts.get id = some acc →
        ∃ name owner key fee, Asked cfg w0 (l ++ [ev]) acc.caller acc.deposit name owner key fee ∧
        id = subAccount name cfg.self ∧ acc.pool.pool.ownerId = owner ∧
        acc.pool.pool.stakePublicKey = key ∧ acc.pool.pool.rewardFee = fee := by
      intro id acc h
      obtain ⟨n, o, k, f, h1, h2⟩ := ih2 id acc h
      exact ⟨n, o, k, f, h1.snoc ev, h2⟩
    cases ev with
    | create who att poolId owner key fee =>
      simp only [step]
      cases hx : createStakingPool (mkEnv cfg (run cfg w0 l) who att []) (run cfg w0 l).c poolId owner key
          fee with
      | error m => exact ⟨keep1, keep2⟩
      | ok r =>
        obtain ⟨s', effs⟩ := r
        have hasked : Asked cfg w0 (l ++ [.create who att poolId owner key fee]) who att poolId owner key fee :=
          ⟨l, [], rfl, _, hx⟩
        obtain ⟨_, rfl, rfl⟩ := create_ok.mp hx
        refine ⟨fun b id d caller h => ?_, keep2⟩
        simp only [applyCall] at h
        rcases List.mem_append.mp h with h | h
        · exact keep1 b id d caller h
        · simp only [createEff, Eff.receipt, List.flatMap_cons, List.flatMap_nil, List.append_nil,
            List.mem_singleton, Receipt.create.injEq] at h
          obtain ⟨rfl, rfl, rfl, rfl⟩ := h
          exact ⟨poolId, hasked, rfl⟩
    | callCallback who att id d caller => rw [callCallback_step]; exact ⟨keep1, keep2⟩
    | income n => exact ⟨keep1, keep2⟩
    | epochs n => exact ⟨keep1, keep2⟩
    | whitelistCall wev => simp only [step]; split <;> exact ⟨keep1, keep2⟩
    | deliver i ok =>
      simp only [step]
      cases hr : (run cfg w0 l).receipts[i]? with
      | none => exact ⟨keep1, keep2⟩
      | some r =>
        have hmem := List.mem_of_getElem? hr
        match r, hr, hmem with
        | .create b' id' d' caller', hr, hmem =>
          obtain ⟨hid', hd', _⟩ := hi.receipts _ hmem
          simp only [execReceipt]
          cases hd : (if ok then deploy cfg { run cfg w0 l with
              receipts := (run cfg w0 l).receipts.eraseIdx i } b' caller' else none) with
          | none =>
            refine ⟨fun b id d caller h => ?_, keep2⟩
            rcases List.mem_append.mp h with h | h
            · exact keep1 b id d caller (List.mem_of_mem_eraseIdx h)
            · simp at h
          | some acc =>
            refine ⟨fun b id d caller h => ?_, fun id acc' h => ?_⟩
            · rcases List.mem_append.mp h with h | h
              · exact keep1 b id d caller (List.mem_of_mem_eraseIdx h)
              · simp at h
            · simp only [UMap.get_insert] at h
              split at h
              · rename_i he
                cases h
                have hd2 : deploy cfg { run cfg w0 l with
                    receipts := (run cfg w0 l).receipts.eraseIdx i } b' caller' = some acc := by
                  cases ok with
                  | true => exact hd
                  | false => cases hd
                obtain ⟨_, _, _, _, g5, g6, _, p, effs, g8, g9⟩ := deploy_some hd2
                obtain ⟨a, h1, h2⟩ := keep1 b' id' d' caller' hmem
                simp only [StakingPool.new, bind_ok, pure_ok, Prod.mk.injEq] at g8
                obtain ⟨_, _, _, _, _, _, _, _, _, _, _, _, _, _, _, _, rfl, _⟩ := g8
                refine ⟨a, _, _, _, by rw [g6, g5, hd']; exact h1, by rw [← he, hid']; exact h2, ?_⟩
                rw [g9]
                exact ⟨rfl, rfl, rfl⟩
              · exact keep2 id acc' h
        | .callback id' d' caller' b', hr, hmem =>
          simp only [execReceipt]
          split
          · rename_i s effs v hx
            refine ⟨fun b id d caller h => ?_, keep2⟩
            simp only [applyCall] at h
            rcases List.mem_append.mp h with h | h
            · exact keep1 b id d caller (List.mem_of_mem_eraseIdx h)
            · obtain ⟨_, _, ⟨_, _, rfl, _⟩ | ⟨_, _, _, rfl, _⟩⟩ := callback_ok.mp hx <;>
                simp [Eff.receipt] at h
          · exact ⟨fun b id d caller h => keep1 b id d caller (List.mem_of_mem_eraseIdx h), keep2⟩
        | .whitelist c id', hr, hmem =>
          simp only [execReceipt]
          split
          · exact ⟨fun b id d caller h => keep1 b id d caller (List.mem_of_mem_eraseIdx h), keep2⟩
          · exact ⟨fun b id d caller h => keep1 b id d caller (List.mem_of_mem_eraseIdx h), keep2⟩

/-! ## A concrete history -/

def demoCfg : Cfg where
  self := "factory"
  validAccountId := fun a => a ≠ ""
  validPublicKey := fun k => k ≠ "bad"
  existing := fun a => a = "old.factory"

def demo0 : World :=
  { c := ⟨"wl", .empty⟩, bal := 5, epoch := 7, accounts := .empty, receipts := [],
    wl := Whitelist.run demoCfg.validAccountId ⟨"fnd", .empty, .empty⟩ [⟨"fnd", 0, .addFactory "factory"⟩],
    attachedBy := fun _ => 0, refunded := fun _ => 0 }

theorem demo0_started : Started demoCfg demo0 :=
  ⟨"x", "wl", _, 5, 7, "fnd", _, _, rfl, ⟨"x", rfl⟩, rfl⟩

/-- `alice` creates a pool, `bob` asks for an id that is taken, `carol` gives a bad key. -/
def demo1 : List Ev :=
  [.create "alice" minAttachedBalance "p" "owner" "key" ⟨1, 10⟩,
   .create "bob" (minAttachedBalance + 1) "old" "owner" "key" ⟨1, 10⟩,
   .create "carol" (minAttachedBalance + 2) "q" "owner" "bad" ⟨1, 10⟩]

/-- All creations are executed, then their callbacks and the whitelisting. -/
def demo2 : List Ev :=
  demo1 ++ [.deliver 0 true, .deliver 0 true, .deliver 0 true, .deliver 0 true, .deliver 0 true,
    .deliver 0 true, .deliver 0 true]

/-! ## C51 -/

/-- **C51.** At every moment the factory owns exactly its own tokens plus the deposits of failed
creations that are about to be refunded, and everything a caller ever attached to accepted creations is
on pools created for that caller, or was transferred back to that caller, or belongs to a creation that
is still unfinished. -/
theorem C51_deposits_accounted {cfg : Cfg} {w0 : World} (hs : Started cfg w0) (evs : List Ev) :
    (run cfg w0 evs).bal = w0.bal + income evs + rsum Receipt.back (run cfg w0 evs).receipts ∧
    ∀ a, (run cfg w0 evs).attachedBy a = (run cfg w0 evs).refunded a + onPools (run cfg w0 evs) a +
      pendingOf (run cfg w0 evs) a := by
  have h := reach_inv hs evs
  refine ⟨h.money, fun a => ?_⟩
  rw [h.ledger a, owed_eq h.receipts, onPools_eq h]

/-- **C51.** When no creation is unfinished, the factory's balance is what it had at the beginning plus
what others gave it, and every caller's deposits are on their pools or have been transferred back. -/
theorem C51_settled {cfg : Cfg} {w0 : World} (hs : Started cfg w0) (evs : List Ev)
    (hq : unresolved (run cfg w0 evs) = []) :
    (run cfg w0 evs).bal = w0.bal + income evs ∧
    ∀ a, (run cfg w0 evs).attachedBy a = (run cfg w0 evs).refunded a + onPools (run cfg w0 evs) a := by
  obtain ⟨h1, h2⟩ := C51_deposits_accounted hs evs
  have hnone : ∀ r ∈ (run cfg w0 evs).receipts, r.unresolved = none := by
    intro r hr
    cases hu : r.unresolved with
    | none => rfl
    | some id =>
      have : id ∈ unresolved (run cfg w0 evs) := List.mem_filterMap.mpr ⟨r, hr, hu⟩
      rw [hq] at this; cases this
  have hb : rsum Receipt.back (run cfg w0 evs).receipts = 0 := by
    generalize (run cfg w0 evs).receipts = l at hnone
    induction l with
    | nil => rfl
    | cons r t ih =>
      have ih' := ih (fun q hq => hnone q (List.mem_cons_of_mem _ hq))
      have hr := hnone r (by simp)
      simp only [rsum, List.map_cons, List.sum_cons] at ih' ⊢
      rw [ih']
      match r, hr with
      | .create _ _ _ _, hr => cases hr
      | .callback _ _ _ true, _ => rfl
      | .callback _ _ _ false, hr => cases hr
      | .whitelist _ _, _ => rfl
  have hp : (run cfg w0 evs).receipts.filterMap Receipt.pending = [] := by
    rw [List.filterMap_eq_nil_iff]
    intro r hr
    have := hnone r hr
    match r, this with
    | .create _ _ _ _, hr => cases hr
    | .callback _ _ _ true, _ => rfl
    | .callback _ _ _ false, hr => cases hr
    | .whitelist _ _, _ => rfl
  refine ⟨by omega, fun a => ?_⟩
  have := h2 a
  unfold pendingOf at this
  rw [hp] at this
  simpa using this

/-- **C51.** The fate of a creation. When its receipt is executed, either the pool account exists
with exactly the deposit, or the callback of a failed creation is in flight and the deposit is back at
the factory. -/
theorem C51_creation_resolves {cfg : Cfg} {w0 : World} (hs : Started cfg w0) (evs : List Ev) {i : Nat}
    {b : Batch} {id : AccountId} {d : Nat} {caller : AccountId}
    (hr : (run cfg w0 evs).receipts[i]? = some (.create b id d caller)) (ok : Bool) :
    (∃ acc, (step cfg (run cfg w0 evs) (.deliver i ok)).accounts.get id = some acc ∧
      acc.pool.liquid = d ∧ acc.caller = caller ∧
      (step cfg (run cfg w0 evs) (.deliver i ok)).bal = (run cfg w0 evs).bal) ∨
    (.callback id d caller false ∈ (step cfg (run cfg w0 evs) (.deliver i ok)).receipts ∧
      (step cfg (run cfg w0 evs) (.deliver i ok)).bal = (run cfg w0 evs).bal + d) := by
  have h := reach_inv hs evs
  generalize run cfg w0 evs = w at hr h
  have hok := h.receipts _ (List.mem_of_getElem? hr)
  obtain ⟨rfl, rfl, _⟩ := hok
  simp only [step, hr, execReceipt]
  cases hd : (if ok then deploy cfg { w with receipts := w.receipts.eraseIdx i } b caller else none) with
  | none => right; simp
  | some acc =>
    left
    have hd' : deploy cfg { w with receipts := w.receipts.eraseIdx i } b caller = some acc := by
      cases ok with
      | true => exact hd
      | false => cases hd
    obtain ⟨_, _, _, _, _, g6, g7, _⟩ := deploy_some hd'
    exact ⟨acc, by simp, g7, g6, rfl⟩

/-- **C51.** The callback of a failed creation never fails: it transfers exactly the deposit to the
caller, and the id is free again. -/
theorem C51_refund_never_fails {cfg : Cfg} {w0 : World} (hs : Started cfg w0) (evs : List Ev) {i : Nat}
    {id : AccountId} {d : Nat} {caller : AccountId}
    (hr : (run cfg w0 evs).receipts[i]? = some (.callback id d caller false)) (ok : Bool) :
    (∀ a, (step cfg (run cfg w0 evs) (.deliver i ok)).refunded a =
      (run cfg w0 evs).refunded a + if caller = a then d else 0) ∧
    (step cfg (run cfg w0 evs) (.deliver i ok)).bal + d = (run cfg w0 evs).bal ∧
    (step cfg (run cfg w0 evs) (.deliver i ok)).c.poolIds.contains id = false := by
  have h := reach_inv hs evs
  generalize run cfg w0 evs = w at hr h
  have hle : d ≤ w.bal := by
    have h1 := h.money
    have h2 := rsum_le_of_mem Receipt.back (List.mem_of_getElem? hr)
    simp only [Receipt.back] at h2
    omega
  have hx : onStakingPoolCreate (mkEnv cfg { w with receipts := w.receipts.eraseIdx i } cfg.self 0 [false])
      w.c id d caller = .ok ({ w.c with poolIds := w.c.poolIds.remove id }, [.transfer caller d],
        some false) :=
    callback_ok.mpr ⟨rfl, rfl, .inr ⟨rfl, hle, rfl, rfl, rfl⟩⟩
  simp only [step, hr, execReceipt, hx, applyCall, Eff.paidTo, Eff.out, List.map_cons, List.map_nil,
    List.sum_cons, List.sum_nil, Nat.add_zero]
  refine ⟨fun a => trivial, by omega, ?_⟩
  simp [contains_eq]

/-- `alice` has a pool; `bob` and `carol` got their deposits back; the factory has what it had. -/
example : unresolved (run demoCfg demo0 demo2) = [] ∧ (run demoCfg demo0 demo2).bal = 5 ∧
    onPools (run demoCfg demo0 demo2) "alice" = minAttachedBalance ∧
    (run demoCfg demo0 demo2).refunded "bob" = minAttachedBalance + 1 ∧
    (run demoCfg demo0 demo2).refunded "carol" = minAttachedBalance + 2 ∧
    (run demoCfg demo0 demo2).attachedBy "carol" = minAttachedBalance + 2 := by
  decide +kernel

/-! ## C52 -/

/-- **C52.** What the factory creates: a direct sub-account `name.factory` (`name` without a dot) that
did not exist before, with the staking pool code, initialized by that code with at least the minimum
deposit of 30 NEAR. -/
theorem C52_created_accounts {cfg : Cfg} {w0 : World} (hs : Started cfg w0) (evs : List Ev)
    {id : AccountId} {acc : Created} (ha : (run cfg w0 evs).accounts.get id = some acc) :
    (∃ name, id = subAccount name cfg.self ∧ '.' ∉ name.toList) ∧ cfg.existing id = false ∧
    acc.code = .stakingPool ∧ StakingPool.Started (poolCfg cfg id) acc.pool ∧
    30 * 10 ^ 24 ≤ acc.pool.liquid := by
  obtain ⟨h1, h2, h3, h4, h5, h6⟩ := (reach_inv hs evs).accounts id acc ha
  exact ⟨exists_name h2, h3, h1, h4, by rw [h5]; exact h6⟩

/-- **C52.** The factory asks the whitelist only about accounts it has created: whatever is whitelisted
was whitelisted before, or is a pool created by the factory, or was added by a call of somebody else. -/
theorem C52_whitelisted_by_factory {cfg : Cfg} {w0 : World} (hs : Started cfg w0) (evs : List Ev)
    {p : AccountId} (hp : Whitelist.PoolIn cfg.validAccountId (run cfg w0 evs).wl p) :
    Whitelist.PoolIn cfg.validAccountId w0.wl p ∨ IsPool (run cfg w0 evs) p ∨
    ∃ l1 ev l2, evs = l1 ++ .whitelistCall ev :: l2 ∧ ev.who ≠ cfg.self ∧
      Whitelist.Does cfg.validAccountId (.addPool p) (run cfg w0 l1).wl ev := by
  induction evs using List.reverseRecOn with
  | nil => exact .inl hp
  | append_singleton l ev ih =>
    rw [run_snoc] at hp ⊢
    have hi := reach_inv hs l
    have keep : Whitelist.PoolIn cfg.validAccountId (run cfg w0 l).wl p →
        Whitelist.PoolIn cfg.validAccountId w0.wl p ∨ IsPool (step cfg (run cfg w0 l) ev) p ∨
        ∃ l1 ev' l2, l ++ [ev] = l1 ++ .whitelistCall ev' :: l2 ∧ ev'.who ≠ cfg.self ∧
          Whitelist.Does cfg.validAccountId (.addPool p) (run cfg w0 l1).wl ev' := by
      intro h
      rcases ih h with h | ⟨acc, h⟩ | ⟨l1, ev', l2, rfl, h2⟩
      · exact .inl h
      · exact .inr (.inl ⟨acc, accounts_step cfg _ ev p acc h⟩)
      · exact .inr (.inr ⟨l1, ev', l2 ++ [ev], by simp, h2⟩)
    cases ev with
    | create who att poolId owner key fee =>
      refine keep ?_
      simp only [step] at hp; split at hp <;> exact hp
    | callCallback who att id d caller => rw [callCallback_step] at hp; exact keep hp
    | income n => exact keep hp
    | epochs n => exact keep hp
    | whitelistCall wev =>
      simp only [step] at hp
      split at hp
      · exact keep hp
      · rename_i hne
        rcases (Whitelist.step_poolIn p wev).mp hp with h | ⟨h, _⟩
        · exact .inr (.inr ⟨l, wev, [], rfl, hne, h⟩)
        · exact keep h
    | deliver i ok =>
      have hp' := hp
      simp only [step] at hp
      cases hr : (run cfg w0 l).receipts[i]? with
      | none => rw [hr] at hp; exact keep hp
      | some r =>
        rw [hr] at hp
        match r, hr, hp with
        | .create b id d caller, hr, hp =>
          refine keep ?_
          simp only [execReceipt] at hp; split at hp <;> exact hp
        | .callback id d caller b, hr, hp =>
          refine keep ?_
          simp only [execReceipt] at hp; split at hp <;> exact hp
        | .whitelist c id, hr, hp =>
          simp only [execReceipt] at hp
          split at hp
          · rcases (Whitelist.step_poolIn p _).mp hp with ⟨h, _⟩ | ⟨h, _⟩
            · cases h
              obtain ⟨_, hacc⟩ := hi.receipts _ (List.mem_of_getElem? hr)
              obtain ⟨acc, hacc⟩ := isPool_iff.mpr hacc
              exact .inr (.inl ⟨acc, accounts_step cfg _ _ p acc hacc⟩)
            · exact keep h
          · exact keep hp

/-- **C52.** At most one creation per id is in flight, and none if the pool exists. -/
theorem C52_one_creation_per_id {cfg : Cfg} {w0 : World} (hs : Started cfg w0) (evs : List Ev) :
    (unresolved (run cfg w0 evs)).Nodup ∧
    ∀ id ∈ unresolved (run cfg w0 evs), ¬ IsPool (run cfg w0 evs) id := by
  have h := reach_inv hs evs
  have hc : ∀ id, (unresolved (run cfg w0 evs)).count id + has (run cfg w0 evs).accounts id ≤ 1 := by
    intro id
    have h1 := h.count id
    rw [open_count] at h1
    have h2 := has_le (run cfg w0 evs).c.poolIds id
    unfold unresolved
    omega
  refine ⟨List.nodup_iff_count_le_one.mpr fun id => by have := hc id; omega, ?_⟩
  intro id hid hp
  have h1 := hc id
  have h2 : 0 < (unresolved (run cfg w0 evs)).count id := List.count_pos_iff.mpr hid
  have h3 := has_eq_one.mpr (isPool_iff.mp hp)
  omega

/-- **C52.** Exactly when a creation is accepted: 30 NEAR attached, valid ids and fee, and the id is
neither a pool of the factory nor being created. In particular a successfully created id is never
accepted again, and an id whose creation failed is accepted again after the refund. -/
theorem C52_accepted_iff {cfg : Cfg} {w0 : World} (hs : Started cfg w0) (evs : List Ev)
    (who : AccountId) (att : Nat) (poolId owner : AccountId) (key : PublicKey) (fee : StakingPool.Fee) :
    (∃ r, createStakingPool (mkEnv cfg (run cfg w0 evs) who att []) (run cfg w0 evs).c poolId owner key fee
      = .ok r) ↔
    30 * 10 ^ 24 ≤ att ∧ att < two128 ∧ '.' ∉ poolId.toList ∧
    cfg.validAccountId (subAccount poolId cfg.self) = true ∧ cfg.validAccountId owner = true ∧
    fee.denominator ≠ 0 ∧ fee.numerator ≤ fee.denominator ∧ fee.denominator < two32 ∧
    ¬ IsPool (run cfg w0 evs) (subAccount poolId cfg.self) ∧
    subAccount poolId cfg.self ∉ unresolved (run cfg w0 evs) := by
  have h := (reach_inv hs evs).count (subAccount poolId cfg.self)
  have hf : (run cfg w0 evs).c.poolIds.contains (subAccount poolId cfg.self) = false ↔
      ¬ IsPool (run cfg w0 evs) (subAccount poolId cfg.self) ∧
      subAccount poolId cfg.self ∉ unresolved (run cfg w0 evs) := by
    rw [← has_eq_zero, ← h, isPool_iff, open_count, Nat.add_eq_zero_iff, has_eq_zero, List.count_eq_zero]
    unfold unresolved
    simp [and_comm]
  constructor
  · rintro ⟨⟨s, effs⟩, hx⟩
    obtain ⟨ha, _⟩ := create_ok.mp hx
    exact ⟨ha.enough, ha.attRange, ha.noDot, ha.validId, ha.validOwner, ha.fee.1, ha.fee.2, ha.feeRange.2,
      hf.mp ha.fresh⟩
  · rintro ⟨h1, h2, h3, h4, h5, h6, h7, h8, h9⟩
    exact ⟨_, create_ok.mpr ⟨⟨⟨by omega, h8⟩, h2, h1, h3, h4, h5, ⟨h6, h7⟩, hf.mpr h9⟩, rfl, rfl⟩⟩

/-- **C52.** Every created pool was asked for by an accepted call, and it has the name, owner, staking
key, fee and deposit that this call gave. -/
theorem C52_created_as_asked {cfg : Cfg} {w0 : World} (hs : Started cfg w0) (evs : List Ev)
    {id : AccountId} {acc : Created} (ha : (run cfg w0 evs).accounts.get id = some acc) :
    ∃ who att name owner key fee, Asked cfg w0 evs who att name owner key fee ∧ acc.caller = who ∧
      id = subAccount name cfg.self ∧ acc.pool.liquid = att ∧ acc.pool.pool.ownerId = owner ∧
      acc.pool.pool.stakePublicKey = key ∧ acc.pool.pool.rewardFee = fee := by
  obtain ⟨name, owner, key, fee, h1, h2, h3, h4, h5⟩ := (origin hs evs).2 id acc ha
  have h6 := ((reach_inv hs evs).accounts id acc ha).deposit.1
  exact ⟨_, _, name, owner, key, fee, h1, rfl, h2, h6, h3, h4, h5⟩

/-- **C52.** A created pool stays: its record never changes, so its id is never created again. -/
theorem C52_created_once {cfg : Cfg} {w0 : World} (evs evs' : List Ev) {id : AccountId} {acc : Created}
    (ha : (run cfg w0 evs).accounts.get id = some acc) :
    (run cfg w0 (evs ++ evs')).accounts.get id = some acc := by
  have : run cfg w0 (evs ++ evs') = run cfg (run cfg w0 evs) evs' := by simp [run]
  rw [this]
  exact accounts_run cfg _ evs' id acc ha

example : IsPool (run demoCfg demo0 demo2) "p.factory" ∧
    Whitelist.PoolIn demoCfg.validAccountId (run demoCfg demo0 demo2).wl "p.factory" ∧
    ¬ Whitelist.PoolIn demoCfg.validAccountId (run demoCfg demo0 demo2).wl "q.factory" ∧
    unresolved (run demoCfg demo0 demo1) = ["p.factory", "old.factory", "q.factory"] := by
  rw [isPool_iff, Whitelist.poolIn_iff, Whitelist.poolIn_iff]
  decide +kernel

/-! ## C53 -/

/-- **C53.** The arguments the factory passes on are accepted by the staking pool: when a creation is
executed (and the runtime does not fail it for a reason of its own), it succeeds exactly when the account
did not exist before the factory and the runtime accepts the staking key. -/
theorem C53_pool_new_accepts {cfg : Cfg} {w0 : World} (hs : Started cfg w0) (evs : List Ev) {i : Nat}
    {b : Batch} {id : AccountId} {d : Nat} {caller : AccountId}
    (hr : (run cfg w0 evs).receipts[i]? = some (.create b id d caller)) :
    IsPool (step cfg (run cfg w0 evs) (.deliver i true)) id ↔
      cfg.existing id = false ∧ cfg.validPublicKey b.key = true := by
  have h := reach_inv hs evs
  have hno : ¬ IsPool (run cfg w0 evs) id := by
    apply (C52_one_creation_per_id hs evs).2
    exact List.mem_filterMap.mpr ⟨_, List.mem_of_getElem? hr, rfl⟩
  rw [isPool_iff] at hno
  generalize run cfg w0 evs = w at hr h hno
  obtain ⟨rfl, rfl, hcode, hsub, hvid, hvo, hfr, hfv, hmin, hmax⟩ :=
    h.receipts _ (List.mem_of_getElem? hr)
  have hnew := pool_new_ok (cfg := cfg) (id := b.receiver) (deployer := cfg.self) (key := b.key)
    (epoch := w.epoch) hfr hfv hvo hmin
  have hno' : w.accounts.contains b.receiver = false := by simpa using hno
  simp only [step, hr, execReceipt, if_true]
  rw [isPool_iff]
  cases hd : deploy cfg { w with receipts := w.receipts.eraseIdx i } b caller with
  | some acc =>
    obtain ⟨_, g2, _, _, _, _, _, p, effs, g8, _⟩ := deploy_some hd
    simp only [contains_eq, UMap.get_insert_self, Option.isSome_some, true_iff]
    exact ⟨g2, hnew.mp ⟨_, g8⟩⟩
  | none =>
    simp only [hno', Bool.false_eq_true, false_iff]
    rintro ⟨g1, g2⟩
    obtain ⟨⟨p, effs⟩, hn⟩ := hnew.mpr g2
    unfold deploy at hd
    rw [if_pos ⟨hsub, g1, hno'⟩] at hd
    simp only [hn] at hd
    cases hd

/-- Both outcomes occur: `p` gets created, `old` and `q` do not. -/
example : IsPool (step demoCfg (run demoCfg demo0 demo1) (.deliver 0 true)) "p.factory" ∧
    ¬ IsPool (step demoCfg (run demoCfg demo0 demo1) (.deliver 1 true)) "old.factory" ∧
    ¬ IsPool (step demoCfg (run demoCfg demo0 demo1) (.deliver 2 true)) "q.factory" := by
  rw [isPool_iff, isPool_iff, isPool_iff]
  decide +kernel

/-! ## C66 -/

/-- **C66.** `get_number_of_staking_pools_created` counts the created pools and the creations in
flight, and nothing else. -/
theorem C66_number_of_pools {cfg : Cfg} {w0 : World} (hs : Started cfg w0) (evs : List Ev) :
    getNumberOfPools (run cfg w0 evs).c =
      (run cfg w0 evs).accounts.entries.length + (unresolved (run cfg w0 evs)).length := by
  have h := reach_inv hs evs
  obtain ⟨h1, h2⟩ := C52_one_creation_per_id hs evs
  generalize run cfg w0 evs = w at h h1 h2
  have hnd : (w.accounts.keys ++ unresolved w).Nodup := by
    refine List.nodup_append.mpr ⟨UMap.keys_nodup _, h1, ?_⟩
    rintro a ha b hb rfl
    obtain ⟨acc, hacc⟩ := UMap.mem_keys.mp ha
    exact h2 a hb ⟨acc, hacc⟩
  have hmem : ∀ a, a ∈ w.c.poolIds.keys ↔ a ∈ w.accounts.keys ++ unresolved w := by
    intro a
    have hc := h.count a
    rw [open_count] at hc
    rw [List.mem_append, UMap.mem_keys, UMap.mem_keys]
    have e1 : (∃ v, w.c.poolIds.get a = some v) ↔ has w.c.poolIds a = 1 := by
      rw [has_eq_one, contains_eq]; cases w.c.poolIds.get a <;> simp
    have e2 : (∃ v, w.accounts.get a = some v) ↔ has w.accounts a = 1 := by
      rw [has_eq_one, contains_eq]; cases w.accounts.get a <;> simp
    have e3 : a ∈ unresolved w ↔ 0 < (w.receipts.filterMap Receipt.unresolved).count a :=
      List.count_pos_iff.symm
    have e4 := has_le w.c.poolIds a
    have e5 := has_le w.accounts a
    rw [e1, e2, e3]
    omega
  have hp : w.c.poolIds.keys.length = (w.accounts.keys ++ unresolved w).length :=
    ((List.perm_ext_iff_of_nodup (UMap.keys_nodup _) hnd).mpr hmem).length_eq
  unfold getNumberOfPools
  rw [UMap.len_eq_keys, hp, List.length_append]
  simp [UMap.keys]

example : getNumberOfPools (run demoCfg demo0 demo1).c = 3 ∧
    getNumberOfPools (run demoCfg demo0 demo2).c = 1 := by decide +kernel

end Verif.PoolFactory
