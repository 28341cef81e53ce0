import Verif.StakingPool.Unlock

/-!
# Why four epochs are enough (helpers for C114)

staking-pool/src/lib.rs:81-85: the runtime gives unstaked tokens back after three epochs, and the stake
action may be executed in the epoch after the call. `Log` follows the stake actions; `Orderly` and
`Unlocks` state the two rules of the runtime; together they give `GivenBack`.
-/

namespace Verif.StakingPool

open Verif

/-- The amount of a stake action. -/
def Receipt.amount? : Receipt → Option Nat
  | .stakeAction amt _ _ => some amt
  | .stakeCallback _ => none

/-- What the runtime remembers: the stake granted last, with the rewards since (an account that asked for
no stake does not keep its rewards staked), and the stake actions on their way with the epoch in which they
were created, oldest first. -/
structure Log where
  granted : Nat
  queue : List (Nat × Nat)

/-- Stake actions created in epoch `e`. -/
def born (e : Nat) (rs : List Receipt) : List (Nat × Nat) :=
  (rs.filterMap Receipt.amount?).map (fun x => (x, e))

/-- The log of a new pool. -/
def startLog (w : World) : Log := ⟨0, born w.epoch w.receipts⟩

/-- The log after one event. -/
def logStep (cfg : Cfg) (w : World) (g : Log) (ev : Ev) : Log :=
  match ev with
  | .call _ _ _ =>
    { g with queue := g.queue ++ born w.epoch ((step cfg w ev).receipts.drop w.receipts.length) }
  | .deliver i ok =>
    match w.receipts[i]? with
    | some (.stakeAction amt _ _) =>
      ⟨if (runStakeAction w amt ok).isSome then amt else g.granted, g.queue.tail⟩
    | some (.stakeCallback _) =>
      { g with
        queue := g.queue ++ born w.epoch ((step cfg w ev).receipts.drop (w.receipts.length - 1)) }
    | none => g
  | .reward r => { g with granted := if g.granted = 0 then 0 else g.granted + r }
  | .unlock _ | .income _ | .epochs _ => g

/-- The log after a history. -/
def runLog (cfg : Cfg) (w : World) (g : Log) : List Ev → Log
  | [] => g
  | ev :: t => runLog cfg (step cfg w ev) (logStep cfg w g ev) t

/-- A stake action waits at most until the next epoch. -/
def Fresh (w : World) (g : Log) : Prop := ∀ q ∈ g.queue, w.epoch ≤ q.2 + 1

/-- Stake actions are executed in the order of their creation, with success. -/
def InOrder (w : World) : Ev → Prop
  | .deliver i ok =>
    match w.receipts[i]? with
    | some (.stakeAction amt _ _) =>
      (∀ r ∈ w.receipts.take i, r.amount? = none) ∧ (runStakeAction w amt ok).isSome = true
    | _ => True
  | _ => True

/-- The first rule: stake actions are executed in order, with success, at the latest in the epoch after
their creation. -/
def Orderly (cfg : Cfg) (w : World) (g : Log) : List Ev → Prop
  | [] => Fresh w g
  | ev :: t => Fresh w g ∧ InOrder w ev ∧ Orderly cfg (step cfg w ev) (logStep cfg w g ev) t

instance (w : World) (g : Log) : Decidable (Fresh w g) := by unfold Fresh; infer_instance

instance (w : World) (ev : Ev) : Decidable (InOrder w ev) := by
  unfold InOrder
  split
  · split <;> infer_instance
  · infer_instance

instance instDecidableOrderly (cfg : Cfg) : ∀ (w : World) (g : Log) (evs : List Ev), Decidable (Orderly cfg w g evs)
  | w, g, [] => inferInstanceAs (Decidable (Fresh w g))
  | w, g, ev :: t =>
    haveI : Decidable (Orderly cfg (step cfg w ev) (logStep cfg w g ev) t) :=
      instDecidableOrderly cfg _ _ t
    inferInstanceAs (Decidable (Fresh w g ∧ InOrder w ev ∧
      Orderly cfg (step cfg w ev) (logStep cfg w g ev) t))

/-- The second rule: three epochs after a reduction of the stake the runtime has given back the
difference. That is, the locked balance is at most the stake granted at some moment that is not before the
end of the third last epoch, plus what came in since. (The event after `pre` leads at least to the second
last epoch.) -/
def Unlocks (cfg : Cfg) (w0 : World) (evs : List Ev) : Prop :=
  ∃ pre post, evs = pre ++ post ∧
    (run cfg w0 evs).epoch ≤ (run cfg w0 (pre ++ post.take 1)).epoch + 2 ∧
    (run cfg w0 evs).locked ≤ (runLog cfg w0 (startLog w0) pre).granted + inflow post

/-! ## Calls and stake actions -/

theorem newReceipts_append (l1 l2 : List Eff) :
    newReceipts (l1 ++ l2) = newReceipts l1 ++ newReceipts l2 := by
  induction l1 with
  | nil => rfl
  | cons e t ih => cases e <;> simp [newReceipts, ih]

/-- A call leaves the stake as it is, or sends a stake action for the new one. -/
def Asks (e : Env) (s s' : Pool) (effs : List Eff) : Prop :=
  (newReceipts effs = [] ∧ s'.paused = s.paused ∧
    (s.paused = false → s'.totalStakedBalance = s.totalStakedBalance ∧
      s'.lastTotalBalance + paidOut effs = s.lastTotalBalance + e.attachedDeposit)) ∨
  ∃ amt k cb, newReceipts effs = [.stakeAction amt k cb] ∧
    (amt = 0 ∨ (amt = s'.totalStakedBalance ∧ s'.paused = false))

theorem exec_asks {s0 : Nat} {e : Env} {s s' : Pool} {c : Call} {effs : List Eff}
    (hi : PoolInv s0 s) (h : exec e s c = .ok (s', effs)) : Asks e s s' effs := by
  have always : ∀ {s1 s2 : Pool} {b : Bool} {l : List Eff}, internalPing e s = .ok (s1, b) →
      s2.paused = s1.paused → internalRestake e s2 = .ok l → Asks e s s2 l := by
    intro s1 s2 b l h1 h2 h3
    rw [(ping_facts hi h1).paused] at h2
    rw [internalRestake_ok] at h3
    rcases h3 with ⟨h4, rfl⟩ | ⟨h4, _, rfl⟩
    · exact .inl ⟨rfl, h2, fun h5 => by rw [← h2, h4] at h5; simp at h5⟩
    · exact .inr ⟨_, _, _, rfl, .inr ⟨rfl, h4⟩⟩
  have maybe : ∀ {s1 s2 : Pool} {b : Bool} {l : List Eff} {pay : Nat},
      internalPing e s = .ok (s1, b) →
      s2.paused = s1.paused → s2.totalStakedBalance = s1.totalStakedBalance →
      s2.lastTotalBalance + pay = s1.lastTotalBalance + e.attachedDeposit →
      restakeIf e s2 b = .ok l → ∀ {l0 : List Eff}, newReceipts l0 = [] → paidOut l0 = pay →
      Asks e s s2 (l0 ++ l) := by
    intro s1 s2 b l pay h1 h2 h3 h4 h5 l0 h6 h7
    rw [restakeIf_ok] at h5
    rcases h5 with ⟨rfl, rfl⟩ | ⟨_, h5⟩
    · rcases ping_exact h1 with ⟨_, rfl, _⟩ | ⟨_, h8, _⟩
      · rw [List.append_nil]
        exact .inl ⟨h6, h2, fun _ => ⟨h3, by omega⟩⟩
      · simp at h8
    · have h8 := always h1 h2 h5
      unfold Asks at h8 ⊢
      rw [newReceipts_append, h6, List.nil_append]
      rcases h8 with ⟨h9, h10, _⟩ | h8
      · rw [internalRestake_ok] at h5
        rcases h5 with ⟨h11, rfl⟩ | ⟨_, _, rfl⟩
        · exact .inl ⟨h9, h10, fun h12 => by rw [← h10, h11] at h12; simp at h12⟩
        · simp [newReceipts] at h9
      · exact .inr h8
  have key : ∀ {s1 b}, internalPing e s = .ok (s1, b) → PoolInv s0 s1 :=
    fun h1 => (ping_facts hi h1).inv
  cases c with
  | ping =>
    simp only [exec, ping, bind_ok, notPayable_ok, pure_ok, Prod.exists, Prod.mk.injEq] at h
    obtain ⟨_, h0, s1, b, h1, effs1, h2, rfl, rfl⟩ := h
    exact maybe (pay := 0) h1 rfl rfl (by omega) h2 (l0 := []) rfl rfl
  | deposit =>
    simp only [exec, deposit, bind_ok, pure_ok, Prod.exists, Prod.mk.injEq] at h
    obtain ⟨s1, b, h1, s2, x, h2, effs1, h3, rfl, rfl⟩ := h
    obtain ⟨of, _, hT, _, hL, _⟩ := deposit_facts (key h1) h2
    exact maybe (pay := 0) h1 of.paused hT (by omega) h3 (l0 := []) rfl rfl
  | depositAndStake =>
    simp only [exec, depositAndStake, bind_ok, pure_ok, Prod.exists, Prod.mk.injEq] at h
    obtain ⟨s1, b, h1, s2, x, h2, s3, h3, effs1, h4, rfl, rfl⟩ := h
    have of := (deposit_facts (key h1) h2).1
    exact always h1 ((stake_facts of.inv h3).1.paused.trans of.paused) h4
  | withdrawAll =>
    simp only [exec, withdrawAll, bind_ok, notPayable_ok, pure_ok, Prod.exists,
      Prod.mk.injEq] at h
    obtain ⟨_, h0, s1, b, h1, s2, effs1, h2, effs2, h3, rfl, rfl⟩ := h
    obtain ⟨of, he, hT, _, hL, _⟩ := withdraw_facts (key h1) h2
    subst he
    exact maybe (pay := (getAcc s1 e.predecessor).unstaked) h1 of.paused hT (by omega) h3 rfl
      (by simp [paidOut])
  | withdraw x =>
    simp only [exec, withdraw, bind_ok, notPayable_ok, pure_ok, Prod.exists,
      Prod.mk.injEq] at h
    obtain ⟨_, h0, s1, b, h1, s2, effs1, h2, effs2, h3, rfl, rfl⟩ := h
    obtain ⟨of, he, hT, _, hL, _⟩ := withdraw_facts (key h1) h2
    subst he
    exact maybe (pay := x) h1 of.paused hT (by omega) h3 rfl (by simp [paidOut])
  | stakeAll =>
    simp only [exec, stakeAll, bind_ok, notPayable_ok, pure_ok, Prod.exists, Prod.mk.injEq] at h
    obtain ⟨_, h0, s1, b, h1, s2, h2, effs1, h4, rfl, rfl⟩ := h
    exact always h1 (stake_facts (key h1) h2).1.paused h4
  | stake x =>
    simp only [exec, stake, bind_ok, notPayable_ok, pure_ok, Prod.exists, Prod.mk.injEq] at h
    obtain ⟨_, h0, s1, b, h1, s2, h2, effs1, h4, rfl, rfl⟩ := h
    exact always h1 (stake_facts (key h1) h2).1.paused h4
  | unstakeAll =>
    simp only [exec, unstakeAll, bind_ok, notPayable_ok, pure_ok, Prod.exists, Prod.mk.injEq] at h
    obtain ⟨_, h0, s1, b, h1, x, hx, s2, h2, effs1, h4, rfl, rfl⟩ := h
    exact always h1 (unstake_facts (key h1) h2).1.paused h4
  | unstake x =>
    simp only [exec, unstake, bind_ok, notPayable_ok, pure_ok, Prod.exists, Prod.mk.injEq] at h
    obtain ⟨_, h0, s1, b, h1, s2, h2, effs1, h4, rfl, rfl⟩ := h
    exact always h1 (unstake_facts (key h1) h2).1.paused h4
  | onStakeAction =>
    simp only [exec, onStakeAction, bind_ok, notPayable_ok, require_ok] at h
    obtain ⟨_, h0, _, h1, _, h2, h3⟩ := h
    split at h3
    · simp only [bind_ok, require_ok, pure_ok, Prod.mk.injEq] at h3
      obtain ⟨_, hk, rfl, rfl⟩ := h3
      exact .inr ⟨_, _, _, rfl, .inl rfl⟩
    · simp only [pure_ok, Prod.mk.injEq] at h3
      obtain ⟨rfl, rfl⟩ := h3
      exact .inl ⟨rfl, rfl, fun _ => ⟨rfl, by simp [paidOut, h0]⟩⟩
  | updateStakingKey k =>
    simp only [exec, updateStakingKey, bind_ok, notPayable_ok, assertOwner_ok, pure_ok,
      Prod.exists, Prod.mk.injEq] at h
    obtain ⟨_, h0, _, ho, s1, b, h1, effs1, h4, rfl, rfl⟩ := h
    exact always h1 rfl h4
  | updateRewardFeeFraction f =>
    simp only [exec, updateRewardFeeFraction, bind_ok, notPayable_ok, assertOwner_ok, pure_ok,
      Fee.assertValid_ok, Fee.decode_ok, Prod.exists, Prod.mk.injEq] at h
    obtain ⟨_, h0, _, hd, _, ho, _, hf, s1, b, h1, effs1, h3, rfl, rfl⟩ := h
    exact maybe (pay := 0) h1 rfl rfl (by omega) h3 (l0 := []) rfl rfl
  | vote a b =>
    simp only [exec, vote, bind_ok, notPayable_ok, assertOwner_ok, require_ok, pure_ok,
      Prod.mk.injEq] at h
    obtain ⟨_, h0, _, ho, _, _, rfl, rfl⟩ := h
    exact .inl ⟨rfl, rfl, fun _ => ⟨rfl, by simp [paidOut, h0]⟩⟩
  | pauseStaking =>
    simp only [exec, pauseStaking, bind_ok, notPayable_ok, assertOwner_ok, require_ok, pure_ok,
      Prod.exists, Prod.mk.injEq] at h
    obtain ⟨_, h0, _, ho, _, _, s1, b, h1, _, hk, rfl, rfl⟩ := h
    exact .inr ⟨_, _, _, rfl, .inl rfl⟩
  | resumeStaking =>
    simp only [exec, resumeStaking, bind_ok, notPayable_ok, assertOwner_ok, require_ok, pure_ok,
      Prod.exists, Prod.mk.injEq] at h
    obtain ⟨_, h0, _, ho, _, _, s1, b, h1, effs1, h4, rfl, rfl⟩ := h
    rw [internalRestake_ok] at h4
    rcases h4 with ⟨h4, _⟩ | ⟨h4, _, rfl⟩
    · simp at h4
    · exact .inr ⟨_, _, _, rfl, .inr ⟨rfl, h4⟩⟩

/-! ## The invariant -/

/-- At some moment of the history so far, in epoch `e` or later, the pool wanted at least `x`, counting
what came in since. -/
def Asked (cfg : Cfg) (w0 : World) (pre : List Ev) (e x : Nat) : Prop :=
  ∃ p1 p2, pre = p1 ++ p2 ∧ e ≤ (run cfg w0 p1).epoch ∧ x ≤ wanted (run cfg w0 p1) + inflow p2

theorem Asked.more {cfg : Cfg} {w0 : World} {pre : List Ev} {e x : Nat} (h : Asked cfg w0 pre e x)
    (ev : Ev) : Asked cfg w0 (pre ++ [ev]) e (x + inflow [ev]) := by
  obtain ⟨p1, p2, rfl, h1, h2⟩ := h
  exact ⟨p1, p2 ++ [ev], by rw [List.append_assoc], h1, by rw [inflow_append]; omega⟩

theorem Asked.le {cfg : Cfg} {w0 : World} {pre : List Ev} {e x y : Nat} (h : Asked cfg w0 pre e x)
    (hy : y ≤ x) : Asked cfg w0 pre e y := by
  obtain ⟨p1, p2, rfl, h1, h2⟩ := h
  exact ⟨p1, p2, rfl, h1, by omega⟩

/-- Each stake, from the granted one to the one asked for last, was what the pool wanted until the next
one was asked for. -/
def Chain (A : Nat → Nat → Prop) (now : Nat) (z : Bool) : Nat → List (Nat × Nat) → Prop
  | x, [] => x ≤ now ∧ (z = true → x = 0)
  | x, q :: t => A q.2 x ∧ Chain A now z q.1 t

theorem Chain.mono {A A' : Nat → Nat → Prop} {now now' : Nat} {z : Bool} {x : Nat}
    {q : List (Nat × Nat)} (h : Chain A now z x q) (hA : ∀ e y, A e y → A' e y) (hn : now ≤ now') :
    Chain A' now' z x q := by
  induction q generalizing x with
  | nil => exact ⟨Nat.le_trans h.1 hn, h.2⟩
  | cons a t ih => exact ⟨hA _ _ h.1, ih h.2⟩

/-- While the pool is paused nothing is asked for. -/
theorem Chain.paused {A A' : Nat → Nat → Prop} {now now' : Nat} {x : Nat}
    {q : List (Nat × Nat)} (h : Chain A now true x q) (hA : ∀ e y, A e y → A' e y) :
    Chain A' now' true x q := by
  induction q generalizing x with
  | nil => exact ⟨by have := h.2 rfl; omega, h.2⟩
  | cons a t ih => exact ⟨hA _ _ h.1, ih h.2⟩

/-- A new stake action. -/
theorem Chain.ask {A A' : Nat → Nat → Prop} {now now' e y : Nat} {z z' : Bool} {x : Nat}
    {q : List (Nat × Nat)} (h : Chain A now z x q) (hA : ∀ e y, A e y → A' e y)
    (hn : ∀ x, x ≤ now → A' e x) (hy : y ≤ now') (hz : z' = true → y = 0) :
    Chain A' now' z' x (q ++ [(y, e)]) := by
  induction q generalizing x with
  | nil => exact ⟨hn x h.1, hy, hz⟩
  | cons a t ih => exact ⟨hA _ _ h.1, ih h.2⟩

/-- The granted stake grows by a reward. -/
theorem Chain.grow {A A' : Nat → Nat → Prop} {now r : Nat} {x : Nat} {z : Bool}
    {q : List (Nat × Nat)} (h : Chain A now z x q) (hA : ∀ e y, A e y → A' e (y + r))
    (hA' : ∀ e y, A' e (y + r) → A' e y) :
    Chain A' (now + r) z (if x = 0 then 0 else x + r) q := by
  by_cases hx : x = 0
  · rw [if_pos hx, ← hx]
    exact h.mono (fun e y k => hA' e y (hA e y k)) (by omega)
  · rw [if_neg hx]
    cases q with
    | nil => exact ⟨by have := h.1; omega, fun h1 => absurd (h.2 h1) hx⟩
    | cons a t => exact ⟨hA _ _ h.1, h.2.mono (fun e y k => hA' e y (hA e y k)) (by omega)⟩

theorem filterMap_erase_none {α β : Type} {f : α → Option β} {l : List α} {i : Nat} {r : α}
    (h : l[i]? = some r) (hf : f r = none) : (l.eraseIdx i).filterMap f = l.filterMap f := by
  induction l generalizing i with
  | nil => simp at h
  | cons a t ih =>
    cases i with
    | zero =>
      simp only [List.getElem?_cons_zero, Option.some.injEq] at h
      subst h
      simp [hf]
    | succ n =>
      simp only [List.getElem?_cons_succ] at h
      simp only [List.eraseIdx_cons_succ, List.filterMap_cons, ih h]

theorem filterMap_erase_first {α β : Type} {f : α → Option β} {l : List α} {i : Nat} {r : α} {b : β}
    (h : l[i]? = some r) (hf : f r = some b) (hn : ∀ x ∈ l.take i, f x = none) :
    l.filterMap f = b :: (l.eraseIdx i).filterMap f := by
  induction l generalizing i with
  | nil => simp at h
  | cons a t ih =>
    cases i with
    | zero =>
      simp only [List.getElem?_cons_zero, Option.some.injEq] at h
      subst h
      simp [hf]
    | succ n =>
      simp only [List.getElem?_cons_succ] at h
      have h1 : f a = none := hn a (by simp)
      simp only [List.eraseIdx_cons_succ, List.filterMap_cons, h1]
      exact ih h (fun x hx => hn x (by simp [hx]))

theorem born_fst (e : Nat) (rs : List Receipt) :
    (born e rs).map Prod.fst = rs.filterMap Receipt.amount? := by
  unfold born
  rw [List.map_map]
  exact List.map_id' _

/-- The log belongs to the world, and the chain holds. -/
structure Track (cfg : Cfg) (w0 : World) (pre : List Ev) (w : World) (g : Log) : Prop where
  here : w = run cfg w0 pre
  queue : g.queue.map Prod.fst = w.receipts.filterMap Receipt.amount?
  chain : Chain (Asked cfg w0 pre) (wanted w) w.pool.paused g.granted g.queue

theorem Asked.keep {cfg : Cfg} {w0 : World} {pre : List Ev} {e x : Nat} (h : Asked cfg w0 pre e x)
    (ev : Ev) : Asked cfg w0 (pre ++ [ev]) e x := (h.more ev).le (Nat.le_add_right _ _)

/-- A successful call in a world with the log. -/
theorem track_commit {cfg : Cfg} {s0 : Nat} {w0 w : World} {pre : List Ev} {g : Log} {ev : Ev}
    (ht : Track cfg w0 pre w g) (hi : WInv cfg s0 w) {who : AccountId} {att : Nat} {res : List Bool}
    {c : Call} {p : Pool} {effs : List Eff} {rs : List Receipt}
    (hx : exec (mkEnv cfg w who att res) w.pool c = .ok (p, effs))
    (hrs : rs.filterMap Receipt.amount? = w.receipts.filterMap Receipt.amount?)
    (h1 : step cfg w ev = commit { w with receipts := rs } who att c p effs) :
    Track cfg w0 (pre ++ [ev]) (commit { w with receipts := rs } who att c p effs)
      { g with queue := g.queue ++ born w.epoch (newReceipts effs) } := by
  have hf := call_facts hi.pool hx
  have hpl := hf.paidLe
  have hcov := hi.cover
  simp only [mkEnv] at hpl
  refine ⟨?_, ?_, ?_⟩
  · rw [run_append, ← ht.here, ← h1]; rfl
  · rw [List.map_append, born_fst, ht.queue]
    simp only [commit, List.filterMap_append, hrs]
  · rcases exec_asks hi.pool hx with ⟨h2, h3, h4⟩ | ⟨amt, k, cb, h2, h3⟩
    · rw [h2]
      simp only [born, List.filterMap_nil, List.map_nil, List.append_nil]
      show Chain _ _ p.paused _ _
      rw [h3]
      cases hp : w.pool.paused
      · obtain ⟨h5, h6⟩ := h4 hp
        simp only [mkEnv] at h6
        have hc := ht.chain
        rw [hp] at hc
        refine hc.mono (fun e y k => k.keep ev) ?_
        unfold wanted
        simp only [commit]
        omega
      · have hc := ht.chain
        rw [hp] at hc
        exact hc.paused (fun e y k => k.keep ev)
    · rw [h2]
      refine ht.chain.ask (fun e y k => k.keep ev) (fun x hx => ?_) ?_ ?_
      · refine ⟨pre, [ev], rfl, ?_, ?_⟩
        · rw [← ht.here]
        · rw [← ht.here]; omega
      · rcases h3 with rfl | ⟨rfl, _⟩
        · exact Nat.zero_le _
        · exact Nat.le_add_right _ _
      · intro hz
        rcases h3 with rfl | ⟨_, h4⟩
        · rfl
        · have hz : p.paused = true := hz
          rw [h4] at hz; simp at hz

/-- An event that changes neither the contract state nor the stake actions. -/
theorem track_env {cfg : Cfg} {w0 w : World} {pre : List Ev} {g : Log} {ev : Ev}
    (ht : Track cfg w0 pre w g) {w' : World} (h0 : step cfg w ev = w') (h1 : w'.pool = w.pool)
    (h2 : w'.receipts.filterMap Receipt.amount? = w.receipts.filterMap Receipt.amount?)
    (h3 : w.liquid + w.locked ≤ w'.liquid + w'.locked) :
    Track cfg w0 (pre ++ [ev]) w' g := by
  refine ⟨?_, ?_, ?_⟩
  · rw [run_append, ← ht.here, ← h0]; rfl
  · rw [h2]; exact ht.queue
  · rw [h1]
    refine ht.chain.mono (fun e y k => k.keep ev) ?_
    unfold wanted
    rw [h1]
    omega

theorem track_step {cfg : Cfg} {s0 : Nat} {w0 w : World} {pre : List Ev} {g : Log}
    (ht : Track cfg w0 pre w g) (hi : WInv cfg s0 w) {ev : Ev} (ho : InOrder w ev) :
    Track cfg w0 (pre ++ [ev]) (step cfg w ev) (logStep cfg w g ev) := by
  cases ev with
  | call who att c =>
    by_cases hw : who = cfg.self
    · have h0 : step cfg w (.call who att c) = w := by simp only [step, if_pos hw]
      have := track_env (ev := .call who att c) ht h0 rfl rfl (Nat.le_refl _)
      simp only [logStep, h0]
      simpa [born] using this
    · cases hx : exec (mkEnv cfg w who att []) w.pool c with
      | error m =>
        have h0 : step cfg w (.call who att c) = w := by simp only [step, if_neg hw, doCall, hx]
        have := track_env (ev := .call who att c) ht h0 rfl rfl (Nat.le_refl _)
        simp only [logStep, h0]
        simpa [born] using this
      | ok r =>
        obtain ⟨p, effs⟩ := r
        have h0 : step cfg w (.call who att c) = commit w who att c p effs := by
          simp only [step, if_neg hw, doCall, hx]
        have := track_commit (ev := .call who att c) (rs := w.receipts) ht hi hx rfl h0
        simp only [logStep, h0]
        simpa [commit] using this
  | deliver i ok =>
    cases hr : w.receipts[i]? with
    | none =>
      have h0 : step cfg w (.deliver i ok) = w := by simp only [step, deliver, hr]
      have := track_env (ev := .deliver i ok) ht h0 rfl rfl (Nat.le_refl _)
      simp only [logStep, h0, hr]
      exact this
    | some r =>
      cases r with
      | stakeAction amt k cb =>
        simp only [InOrder, hr] at ho
        obtain ⟨h1, h2⟩ := ho
        have hq := ht.queue
        rw [filterMap_erase_first hr (show Receipt.amount? _ = some amt from rfl) h1] at hq
        cases hg : g.queue with
        | nil => rw [hg] at hq; simp at hq
        | cons q t =>
          rw [hg] at hq
          simp only [List.map_cons, List.cons.injEq] at hq
          have hc := ht.chain
          rw [hg] at hc
          obtain ⟨⟨liq, lck⟩, h3⟩ := Option.isSome_iff_exists.mp h2
          have h0 : step cfg w (.deliver i ok) = { w with
              liquid := liq, locked := lck,
              receipts := w.receipts.eraseIdx i ++ (if cb then [.stakeCallback true] else []) } := by
            simp only [step, deliver, hr, h3]
          have hsum : liq + lck = w.liquid + w.locked := by
            unfold runStakeAction at h3
            split at h3
            · split at h3
              · simp only [Option.some.injEq, Prod.mk.injEq] at h3; omega
              · simp only [Option.some.injEq, Prod.mk.injEq] at h3; omega
            · simp at h3
          have hl : logStep cfg w g (.deliver i ok) = ⟨amt, t⟩ := by
            simp only [logStep, hr, h2, if_true, hg, List.tail_cons]
          rw [hl]
          refine ⟨?_, ?_, ?_⟩
          · rw [run_append, ← ht.here]; rfl
          · rw [h0]
            simp only [List.filterMap_append, hq.2]
            cases cb <;> simp [Receipt.amount?]
          · rw [h0]
            have := hc.2
            rw [hq.1] at this
            refine this.mono (fun e y k => k.keep _) ?_
            unfold wanted
            simp only [hsum]
            exact Nat.le_refl _
      | stakeCallback b =>
        have hlen : (w.receipts.eraseIdx i).length = w.receipts.length - 1 := by
          rw [List.length_eraseIdx_of_lt]
          exact (List.getElem?_eq_some_iff.mp hr).1
        have hfm := filterMap_erase_none hr (show Receipt.amount? (.stakeCallback b) = none from rfl)
        cases hx : exec (mkEnv cfg w cfg.self 0 [b]) w.pool .onStakeAction with
        | error m =>
          have h0 : step cfg w (.deliver i ok) = { w with receipts := w.receipts.eraseIdx i } := by
            simp only [step, deliver, hr, doCall]
            have hx' : exec (mkEnv cfg { w with receipts := w.receipts.eraseIdx i } cfg.self 0 [b])
              w.pool .onStakeAction = .error m := hx
            rw [hx']
          have := track_env (ev := .deliver i ok) ht h0 rfl hfm (Nat.le_refl _)
          simp only [logStep, hr, h0]
          rw [← hlen]
          simpa [born] using this
        | ok r =>
          obtain ⟨p, effs⟩ := r
          have h0 : step cfg w (.deliver i ok) =
              commit { w with receipts := w.receipts.eraseIdx i } cfg.self 0 .onStakeAction p effs := by
            simp only [step, deliver, hr, doCall]
            have hx' : exec (mkEnv cfg { w with receipts := w.receipts.eraseIdx i } cfg.self 0 [b])
              w.pool .onStakeAction = .ok (p, effs) := hx
            rw [hx']
          have := track_commit (ev := .deliver i ok) ht hi hx hfm h0
          simp only [logStep, hr, h0]
          rw [← hlen]
          simpa [commit] using this
  | reward r =>
    refine ⟨?_, ht.queue, ?_⟩
    · rw [run_append, ← ht.here]; rfl
    · have hc := ht.chain.grow (A' := Asked cfg w0 (pre ++ [.reward r])) (r := r)
        (fun e y k => by
          have := k.more (.reward r)
          simpa [inflow] using this)
        (fun e y k => k.le (Nat.le_add_right _ _))
      refine hc.mono (fun _ _ k => k) ?_
      have := hi.cover
      unfold wanted
      simp only [step]
      omega
  | unlock x =>
    simp only [step]
    split
    · rename_i hx
      exact track_env ht (by simp only [step, if_pos hx]) rfl rfl (by simp only; omega)
    · rename_i hx
      exact track_env ht (by simp only [step, if_neg hx]) rfl rfl (Nat.le_refl _)
  | income r => exact track_env ht rfl rfl rfl (by simp only [step]; omega)
  | epochs n => exact track_env ht rfl rfl rfl (Nat.le_refl _)

theorem track_run {cfg : Cfg} {s0 : Nat} {w0 w : World} {pre : List Ev} {g : Log}
    (ht : Track cfg w0 pre w g) (hi : WInv cfg s0 w) {p q : List Ev}
    (ho : Orderly cfg w g (p ++ q)) :
    Track cfg w0 (pre ++ p) (run cfg w p) (runLog cfg w g p) ∧
      Orderly cfg (run cfg w p) (runLog cfg w g p) q := by
  induction p generalizing pre w g with
  | nil => exact ⟨by rw [List.append_nil]; exact ht, ho⟩
  | cons ev t ih =>
    obtain ⟨_, h1, h2⟩ := ho
    have := ih (track_step ht hi h1) (step_inv hi ev) h2
    rw [List.append_assoc] at this
    exact this

theorem track_start {cfg : Cfg} {w0 : World} (h : Started cfg w0) :
    Track cfg w0 [] w0 (startLog w0) := by
  refine ⟨rfl, born_fst _ _, ?_⟩
  obtain ⟨dep, owner, key, fee, bal, ep, p, effs, hb, hlt, hn, rfl⟩ := h
  simp only [new, bind_ok, require_ok, subU_ok, Fee.assertValid_ok, Fee.decode_ok, pure_ok,
    Prod.mk.injEq, initEnv] at hn
  obtain ⟨_, _, _, hd, _, _, _, hf, _, _, _, ⟨h1, rfl⟩, _, _, effs1, h2, rfl, rfl⟩ := hn
  rw [internalRestake_ok] at h2
  rcases h2 with ⟨h, _⟩ | ⟨_, _, rfl⟩
  · simp at h
  · exact ⟨⟨[], [], rfl, Nat.le_refl _, Nat.zero_le _⟩, Nat.le_add_right _ _, fun h => by
      simp [initWorld] at h⟩

theorem Orderly.fresh {cfg : Cfg} {w : World} {g : Log} {evs : List Ev}
    (h : Orderly cfg w g evs) : Fresh w g := by
  cases evs with
  | nil => exact h
  | cons ev t => exact h.1

theorem doCall_epoch (cfg : Cfg) (w : World) (who : AccountId) (att : Nat) (res : List Bool) (c : Call) :
    (doCall cfg w who att res c).epoch = w.epoch := by
  unfold doCall; split <;> rfl

theorem step_epoch (cfg : Cfg) (w : World) (ev : Ev) :
    (∃ n, ev = .epochs n) ∨ (step cfg w ev).epoch = w.epoch := by
  cases ev with
  | epochs n => exact .inl ⟨n, rfl⟩
  | call who att c =>
    right
    simp only [step]
    split
    · rfl
    · exact doCall_epoch _ _ _ _ _ _
  | deliver i ok =>
    right
    simp only [step, deliver]
    split
    · rfl
    · split <;> rfl
    · exact doCall_epoch _ _ _ _ _ _
  | reward r => exact .inr rfl
  | unlock x => right; simp only [step]; split <;> rfl
  | income r => exact .inr rfl

/-- The two rules of the runtime together: what the pool counts on. -/
theorem givenBack_of_rules {cfg : Cfg} {w0 : World} (h : Started cfg w0) {evs : List Ev}
    (ho : Orderly cfg w0 (startLog w0) evs) (hu : Unlocks cfg w0 evs) : GivenBack cfg w0 evs := by
  obtain ⟨pre, post, rfl, h1, h2⟩ := hu
  obtain ⟨b, _, hi, _⟩ := started_inv h
  obtain ⟨ht, ho'⟩ := track_run (track_start h) hi ho
  rw [List.nil_append] at ht
  have hf := ho'.fresh
  have hc := ht.chain
  generalize runLog cfg w0 (startLog w0) pre = g at *
  generalize hE : (run cfg w0 (pre ++ post)).epoch = E at *
  generalize hL : (run cfg w0 (pre ++ post)).locked = L at *
  have hw : ∀ e, Asked cfg w0 pre e g.granted → E ≤ e + 3 →
      ∃ p1 p2, pre ++ post = p1 ++ p2 ∧ E ≤ (run cfg w0 p1).epoch + 3 ∧
        L ≤ wanted (run cfg w0 p1) + inflow p2 := by
    rintro e ⟨p1, p2, hp, k1, k2⟩ he
    refine ⟨p1, p2 ++ post, by rw [hp, List.append_assoc], by omega, ?_⟩
    rw [inflow_append]; omega
  unfold GivenBack
  rw [hE, hL]
  clear hE hL
  cases hq : g.queue with
  | nil =>
    rw [hq] at hc
    have hle : g.granted ≤ wanted (run cfg w0 pre) := hc.1
    cases post with
    | nil => exact ⟨pre, [], rfl, by simp only [List.take_nil, List.append_nil] at h1; omega, by omega⟩
    | cons ev t =>
      have h3 : run cfg w0 (pre ++ [ev]) = step cfg (run cfg w0 pre) ev := by rw [run_append]; rfl
      simp only [List.take_succ_cons, List.take_zero] at h1
      rcases step_epoch cfg (run cfg w0 pre) ev with ⟨n, rfl⟩ | h4
      · refine ⟨pre ++ [.epochs n], t, by simp, by omega, ?_⟩
        rw [h3]
        exact Nat.le_trans h2 (Nat.add_le_add_right hle _)
      · exact ⟨pre, ev :: t, rfl, by rw [h3, h4] at h1; omega, by omega⟩
  | cons q r =>
    rw [hq] at hc
    refine hw q.2 hc.1 ?_
    have hf1 := hf q (by rw [hq]; simp)
    cases post with
    | nil => simp only [List.take_nil, List.append_nil] at h1; omega
    | cons ev t =>
      have h3 : run cfg w0 (pre ++ [ev]) = step cfg (run cfg w0 pre) ev := by rw [run_append]; rfl
      simp only [List.take_succ_cons, List.take_zero] at h1
      rcases step_epoch cfg (run cfg w0 pre) ev with ⟨n, rfl⟩ | h4
      · have hf2 := ho'.2.2.fresh q (by simp only [logStep]; rw [hq]; simp)
        rw [h3] at h1
        omega
      · rw [h3, h4] at h1; omega

end Verif.StakingPool
