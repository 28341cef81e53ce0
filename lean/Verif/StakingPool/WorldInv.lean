import Verif.StakingPool.CallFacts

/-! # Invariant of the whole staking pool world, by induction on histories -/

namespace Verif.StakingPool

open Verif

/-- Invariant of the world. -/
structure WInv (cfg : Cfg) (s0 : Nat) (w : World) : Prop where
  pool : PoolInv s0 w.pool
  cover : w.pool.lastTotalBalance ≤ w.liquid + w.locked
  solv : w.pool.totalStakedBalance + sumUnstaked w.pool + guaranteeFund ≤
    w.pool.lastTotalBalance + w.roundings
  solvLow : w.pool.lastTotalBalance ≤
    w.pool.totalStakedBalance + sumUnstaked w.pool + guaranteeFund
  lastEpoch : w.pool.lastEpochHeight ≤ w.epoch
  key : w.pool.paused = true ∨ cfg.validPublicKey w.pool.stakePublicKey = true
  value : ∀ a, w.deposited a ≤ (getAcc w.pool a).unstaked + stakedOf w.pool a + w.withdrawn a

theorem pingRel_key {e : Env} {s s1 : Pool} (h : PingRel e s s1) :
    s1.paused = s.paused ∧ s1.stakePublicKey = s.stakePublicKey := by
  rcases h with rfl | ⟨b, h⟩
  · exact ⟨rfl, rfl⟩
  · rw [internalPing_ok] at h
    rcases h with ⟨_, rfl, _⟩ | ⟨_, _, _, h1, _, s2, h, rfl⟩
    · exact ⟨rfl, rfl⟩
    · unfold distributeIf at h
      split at h
      · rw [distribute_ok] at h
        obtain ⟨fee, n, _, _, _, _, _, rfl⟩ := h
        exact ⟨rfl, rfl⟩
      · rw [pure_ok] at h; subst h; exact ⟨rfl, rfl⟩

/-- The stored key is valid unless the pool is paused. -/
theorem exec_key {s0 : Nat} {e : Env} {s s' : Pool} {c : Call} {effs : List Eff}
    (hi : PoolInv s0 s)
    (h : exec e s c = .ok (s', effs))
    (hk : s.paused = true ∨ e.validPublicKey s.stakePublicKey = true) :
    s'.paused = true ∨ e.validPublicKey s'.stakePublicKey = true := by
  have hping : ∀ {s1 b}, internalPing e s = .ok (s1, b) →
      PoolInv s0 s1 ∧ s1.paused = s.paused ∧ s1.stakePublicKey = s.stakePublicKey :=
    fun h1 => ⟨(ping_facts hi h1).inv, pingRel_key (.inr ⟨_, h1⟩)⟩
  cases c with
  | ping =>
    simp only [exec, ping, bind_ok, notPayable_ok, pure_ok, Prod.exists, Prod.mk.injEq] at h
    obtain ⟨_, h0, s1, b, h1, effs1, h2, rfl, rfl⟩ := h
    obtain ⟨_, h3, h4⟩ := hping h1
    rw [h3, h4]; exact hk
  | deposit =>
    simp only [exec, deposit, bind_ok, pure_ok, Prod.exists, Prod.mk.injEq] at h
    obtain ⟨s1, b, h1, s2, x, h2, effs1, h3, rfl, rfl⟩ := h
    obtain ⟨hi1, h4, h5⟩ := hping h1
    have hf := (deposit_facts hi1 h2).1
    rw [hf.paused, hf.key, h4, h5]; exact hk
  | depositAndStake =>
    simp only [exec, depositAndStake, bind_ok, pure_ok, Prod.exists, Prod.mk.injEq] at h
    obtain ⟨s1, b, h1, s2, x, h2, s3, h3, effs1, h4, rfl, rfl⟩ := h
    rw [internalRestake_ok] at h4
    rcases h4 with ⟨h, _⟩ | ⟨_, h, _⟩
    · exact .inl h
    · exact .inr h
  | withdrawAll =>
    simp only [exec, withdrawAll, bind_ok, notPayable_ok, pure_ok, Prod.exists,
      Prod.mk.injEq] at h
    obtain ⟨_, h0, s1, b, h1, s2, effs1, h2, effs2, h3, rfl, rfl⟩ := h
    obtain ⟨hi1, h4, h5⟩ := hping h1
    have hf := (withdraw_facts hi1 h2).1
    rw [hf.paused, hf.key, h4, h5]; exact hk
  | withdraw x =>
    simp only [exec, withdraw, bind_ok, notPayable_ok, pure_ok, Prod.exists,
      Prod.mk.injEq] at h
    obtain ⟨_, h0, s1, b, h1, s2, effs1, h2, effs2, h3, rfl, rfl⟩ := h
    obtain ⟨hi1, h4, h5⟩ := hping h1
    have hf := (withdraw_facts hi1 h2).1
    rw [hf.paused, hf.key, h4, h5]; exact hk
  | stakeAll =>
    simp only [exec, stakeAll, bind_ok, notPayable_ok, pure_ok, Prod.exists, Prod.mk.injEq] at h
    obtain ⟨_, h0, s1, b, h1, s2, h2, effs1, h4, rfl, rfl⟩ := h
    rw [internalRestake_ok] at h4
    rcases h4 with ⟨h, _⟩ | ⟨_, h, _⟩
    · exact .inl h
    · exact .inr h
  | stake x =>
    simp only [exec, stake, bind_ok, notPayable_ok, pure_ok, Prod.exists, Prod.mk.injEq] at h
    obtain ⟨_, h0, s1, b, h1, s2, h2, effs1, h4, rfl, rfl⟩ := h
    rw [internalRestake_ok] at h4
    rcases h4 with ⟨h, _⟩ | ⟨_, h, _⟩
    · exact .inl h
    · exact .inr h
  | unstakeAll =>
    simp only [exec, unstakeAll, bind_ok, notPayable_ok, pure_ok, Prod.exists, Prod.mk.injEq] at h
    obtain ⟨_, h0, s1, b, h1, x, hx, s2, h2, effs1, h4, rfl, rfl⟩ := h
    rw [internalRestake_ok] at h4
    rcases h4 with ⟨h, _⟩ | ⟨_, h, _⟩
    · exact .inl h
    · exact .inr h
  | unstake x =>
    simp only [exec, unstake, bind_ok, notPayable_ok, pure_ok, Prod.exists, Prod.mk.injEq] at h
    obtain ⟨_, h0, s1, b, h1, s2, h2, effs1, h4, rfl, rfl⟩ := h
    rw [internalRestake_ok] at h4
    rcases h4 with ⟨h, _⟩ | ⟨_, h, _⟩
    · exact .inl h
    · exact .inr h
  | onStakeAction =>
    simp only [exec, onStakeAction, bind_ok, notPayable_ok, require_ok] at h
    obtain ⟨_, h0, _, h1, _, h2, h3⟩ := h
    split at h3
    · simp only [bind_ok, require_ok, pure_ok, Prod.mk.injEq] at h3
      obtain ⟨_, _, rfl, rfl⟩ := h3
      exact hk
    · simp only [pure_ok, Prod.mk.injEq] at h3
      obtain ⟨rfl, rfl⟩ := h3
      exact hk
  | updateStakingKey k =>
    simp only [exec, updateStakingKey, bind_ok, notPayable_ok, assertOwner_ok, pure_ok,
      Prod.exists, Prod.mk.injEq] at h
    obtain ⟨_, h0, _, ho, s1, b, h1, effs1, h4, rfl, rfl⟩ := h
    rw [internalRestake_ok] at h4
    rcases h4 with ⟨h, _⟩ | ⟨_, h, _⟩
    · exact .inl h
    · exact .inr h
  | updateRewardFeeFraction f =>
    simp only [exec, updateRewardFeeFraction, bind_ok, notPayable_ok, assertOwner_ok, pure_ok,
      Fee.assertValid_ok, Fee.decode_ok, Prod.exists, Prod.mk.injEq] at h
    obtain ⟨_, h0, _, hd, _, ho, _, hf, s1, b, h1, effs1, h3, rfl, rfl⟩ := h
    obtain ⟨hi1, h4, h5⟩ := hping h1
    simp only [h4, h5]; exact hk
  | vote a b =>
    simp only [exec, vote, bind_ok, notPayable_ok, assertOwner_ok, require_ok, pure_ok,
      Prod.mk.injEq] at h
    obtain ⟨_, h0, _, ho, _, _, rfl, rfl⟩ := h
    exact hk
  | pauseStaking =>
    simp only [exec, pauseStaking, bind_ok, notPayable_ok, assertOwner_ok, require_ok, pure_ok,
      Prod.exists, Prod.mk.injEq] at h
    obtain ⟨_, h0, _, ho, _, _, s1, b, h1, _, _, rfl, rfl⟩ := h
    exact .inl rfl
  | resumeStaking =>
    simp only [exec, resumeStaking, bind_ok, notPayable_ok, assertOwner_ok, require_ok, pure_ok,
      Prod.exists, Prod.mk.injEq] at h
    obtain ⟨_, h0, _, ho, _, _, s1, b, h1, effs1, h4, rfl, rfl⟩ := h
    rw [internalRestake_ok] at h4
    rcases h4 with ⟨h, _⟩ | ⟨_, h, _⟩
    · exact .inl h
    · exact .inr h

/-- The callback never changes the contract state. -/
theorem onStakeAction_state {e : Env} {s s' : Pool} {effs : List Eff}
    (h : exec e s .onStakeAction = .ok (s', effs)) : s' = s ∧ NoTransfer effs := by
  simp only [exec, onStakeAction, bind_ok, notPayable_ok, require_ok] at h
  obtain ⟨_, h0, _, h1, _, h2, h3⟩ := h
  split at h3
  · simp only [bind_ok, require_ok, pure_ok, Prod.mk.injEq] at h3
    obtain ⟨_, _, rfl, rfl⟩ := h3; exact ⟨rfl, by simp [NoTransfer]⟩
  · simp only [pure_ok, Prod.mk.injEq] at h3
    obtain ⟨rfl, rfl⟩ := h3; exact ⟨rfl, by simp [NoTransfer]⟩

/-- What one event can do. -/
inductive StepRel (cfg : Cfg) (w : World) (ev : Ev) : World → Prop where
  /-- the contract state and the history variables do not change -/
  | env {w'} : w'.pool = w.pool → w'.roundings = w.roundings → w'.deposited = w.deposited →
      w'.withdrawn = w.withdrawn → w'.totalDeposited = w.totalDeposited →
      w'.totalWithdrawn = w.totalWithdrawn → w.epoch ≤ w'.epoch →
      w'.liquid + w'.locked = w.liquid + w.locked + inflow [ev] → StepRel cfg w ev w'
  /-- a successful call -/
  | call {who att c p effs} : ev = .call who att c → who ≠ cfg.self →
      exec (mkEnv cfg w who att []) w.pool c = .ok (p, effs) →
      StepRel cfg w ev (commit w who att c p effs)
  /-- a successful callback -/
  | callback {r i ok effs rest} : ev = .deliver i ok →
      exec (mkEnv cfg w cfg.self 0 [r]) w.pool .onStakeAction = .ok (w.pool, effs) →
      NoTransfer effs →
      StepRel cfg w ev { w with receipts := rest ++ newReceipts effs }

theorem step_rel (cfg : Cfg) (w : World) (ev : Ev) : StepRel cfg w ev (step cfg w ev) := by
  cases ev with
  | call who att c =>
    simp only [step]
    split
    · exact .env rfl rfl rfl rfl rfl rfl (Nat.le_refl _) rfl
    · rename_i hne
      unfold doCall
      split
      · rename_i p effs h
        exact .call rfl hne h
      · exact .env rfl rfl rfl rfl rfl rfl (Nat.le_refl _) rfl
  | deliver i ok =>
    simp only [step, deliver]
    split
    · exact .env rfl rfl rfl rfl rfl rfl (Nat.le_refl _) rfl
    · rename_i amt k cb hr
      unfold runStakeAction
      split
      · rename_i liq lck h
        refine .env rfl rfl rfl rfl rfl rfl (Nat.le_refl _) ?_
        simp only [inflow, Nat.add_zero]
        split at h
        · rename_i hle
          split at h
          · simp only [Option.some.injEq, Prod.mk.injEq] at h; omega
          · simp only [Option.some.injEq, Prod.mk.injEq] at h; omega
        · simp at h
      · exact .env rfl rfl rfl rfl rfl rfl (Nat.le_refl _) rfl
    · rename_i r hr
      unfold doCall
      split
      · rename_i p effs h
        obtain ⟨hp, hn⟩ := onStakeAction_state h
        subst hp
        have : commit { w with receipts := w.receipts.eraseIdx i } cfg.self 0 .onStakeAction
            w.pool effs = { w with receipts := w.receipts.eraseIdx i ++ newReceipts effs } := by
          simp only [commit, paidOut_noTransfer hn, paidTo_noTransfer hn]
          simp [Call.isRounding]
        simp only at this ⊢
        rw [this]
        exact .callback rfl h hn
      · exact .env rfl rfl rfl rfl rfl rfl (Nat.le_refl _) rfl
  | reward r => exact .env rfl rfl rfl rfl rfl rfl (Nat.le_refl _) (by simp [step, inflow]; omega)
  | unlock x =>
    simp only [step]
    split
    · exact .env rfl rfl rfl rfl rfl rfl (Nat.le_refl _) (by simp [inflow]; omega)
    · exact .env rfl rfl rfl rfl rfl rfl (Nat.le_refl _) rfl
  | income r => exact .env rfl rfl rfl rfl rfl rfl (Nat.le_refl _) (by simp [step, inflow]; omega)
  | epochs n => exact .env rfl rfl rfl rfl rfl rfl (by simp [step]) rfl

theorem step_inv {cfg : Cfg} {s0 : Nat} {w : World} (h : WInv cfg s0 w) (ev : Ev) :
    WInv cfg s0 (step cfg w ev) := by
  have hr := step_rel cfg w ev
  generalize step cfg w ev = w' at hr ⊢
  cases hr with
  | env h1 h2 h3 h4 _ _ h5 h6 =>
    refine ⟨?_, ?_, ?_, ?_, ?_, ?_, ?_⟩
    · rw [h1]; exact h.pool
    · rw [h1, h6]; have := h.cover; omega
    · rw [h1, h2]; exact h.solv
    · rw [h1]; exact h.solvLow
    · rw [h1]; exact Nat.le_trans h.lastEpoch h5
    · rw [h1]; exact h.key
    · rw [h1, h3, h4]; exact h.value
  | callback _ _ _ => exact ⟨h.pool, h.cover, h.solv, h.solvLow, h.lastEpoch, h.key, h.value⟩
  | @call who att c p effs _ hne hx =>
    have hf := call_facts h.pool hx
    have hcov := h.cover
    refine ⟨hf.inv, ?_, ?_, ?_, ?_, ?_, ?_⟩
    · have h1 := hf.snapshot (by simp only [mkEnv]; omega)
      have h2 := hf.paidLe
      simp only [mkEnv] at h1 h2
      simp only [commit]
      omega
    · have := hf.solv; have := h.solv
      simp only [commit]; omega
    · have := hf.solvLow; have := h.solvLow
      simp only [commit]; omega
    · rcases hf.lastEpoch with h1 | h1
      · simp only [commit, h1]; exact h.lastEpoch
      · simp only [commit, h1]; exact Nat.le_refl _
    · exact exec_key h.pool hx h.key
    · intro a
      simp only [commit]
      by_cases ha : a = who
      · subst ha
        have h1 := hf.value
        have h2 := h.value a
        simp only [mkEnv] at h1
        simp only [if_true]
        omega
      · rw [if_neg ha]
        have h1 := hf.ownerAcc a (by simpa [mkEnv] using ha)
        have h2 := h.value a
        have h3 := stakedOf_mono (a := a) h.pool hf.inv hf.price h1.2.1
        omega

theorem run_inv {cfg : Cfg} {s0 : Nat} {w : World} (h : WInv cfg s0 w) (evs : List Ev) :
    WInv cfg s0 (run cfg w evs) := by
  induction evs generalizing w with
  | nil => exact h
  | cons ev t ih => exact ih (step_inv h ev)

theorem step_price {cfg : Cfg} {s0 : Nat} {w : World} (h : WInv cfg s0 w) (ev : Ev) :
    PriceLe w.pool (step cfg w ev).pool := by
  have hr := step_rel cfg w ev
  generalize step cfg w ev = w' at hr ⊢
  cases hr with
  | env h1 => rw [h1]; exact PriceLe.refl _
  | callback _ _ _ => exact PriceLe.refl _
  | call _ _ hx => exact (call_facts h.pool hx).price

theorem run_price {cfg : Cfg} {s0 : Nat} {w : World} (h : WInv cfg s0 w) (evs : List Ev) :
    PriceLe w.pool (run cfg w evs).pool := by
  induction evs generalizing w with
  | nil => exact PriceLe.refl _
  | cons ev t ih =>
    exact (step_price h ev).trans (step_inv h ev).pool.S_pos (ih (step_inv h ev))

/-- The contract state right after initialization. -/
theorem started_inv {cfg : Cfg} {w0 : World} (h : Started cfg w0) :
    ∃ bal0, guaranteeFund < bal0 ∧ WInv cfg (bal0 - guaranteeFund) w0 ∧
      w0.liquid + w0.locked = bal0 ∧ w0.totalDeposited = 0 ∧ w0.totalWithdrawn = 0 ∧
      w0.roundings = 0 := by
  obtain ⟨dep, owner, key, fee, bal, ep, p, effs, hb, hlt, hn, rfl⟩ := h
  simp only [new, bind_ok, require_ok, subU_ok, Fee.assertValid_ok, Fee.decode_ok, pure_ok,
    Prod.mk.injEq, initEnv] at hn
  obtain ⟨_, _, _, hd, _, _, _, hf, _, _, _, ⟨h1, rfl⟩, _, _, effs1, h2, rfl, rfl⟩ := hn
  refine ⟨bal, hb, ⟨⟨Nat.sub_pos_of_lt hb, ?_, ?_, ?_, ⟨hf.1, hf.2, hd.1⟩, ?_⟩, ?_, ?_, ?_, ?_, ?_, ?_⟩,
    rfl, rfl, rfl, rfl⟩
  · simp [initWorld, sumShares, UMap.sum, UMap.empty]
  · exact Nat.le_refl (bal - guaranteeFund)
  · exact Nat.lt_of_le_of_lt (Nat.sub_le bal guaranteeFund) hlt
  · intro a acc h; simp [initWorld] at h
  · simp [initWorld]
  · simp [initWorld, sumUnstaked, UMap.sum, UMap.empty]; omega
  · simp [initWorld, sumUnstaked, UMap.sum, UMap.empty]; omega
  · simp [initWorld]
  · rw [internalRestake_ok] at h2
    rcases h2 with ⟨h, _⟩ | ⟨_, h, _⟩
    · exact .inl h
    · exact .inr h
  · intro a; simp [initWorld]

end Verif.StakingPool
