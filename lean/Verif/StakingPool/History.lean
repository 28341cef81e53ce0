import Verif.StakingPool.Props2

/-! # Helper lemmas about single calls used by the history properties -/

namespace Verif.StakingPool

open Verif

/-- The balance snapshot after a call: either no distribution happened and it moved with the tokens
of the call, or a distribution happened and it is exactly the tokens on the account. -/
theorem exec_snapshot {s0 : Nat} {e : Env} {s s' : Pool} {c : Call} {effs : List Eff}
    (hi : PoolInv s0 s) (h : exec e s c = .ok (s', effs)) :
    (s'.lastEpochHeight = s.lastEpochHeight ∧
      s'.lastTotalBalance + paidOut effs = s.lastTotalBalance + e.attachedDeposit) ∨
    (s'.lastEpochHeight = e.epochHeight ∧ e.epochHeight ≠ s.lastEpochHeight ∧
      s'.lastTotalBalance + paidOut effs = e.accountLockedBalance + e.accountBalance) := by
  obtain ⟨s1, hp, hb⟩ := exec_cases h
  have hpf := pingRel_facts hi hp
  have h1 : (s1.lastEpochHeight = s.lastEpochHeight ∧ s1.lastTotalBalance = s.lastTotalBalance) ∨
      (s1.lastEpochHeight = e.epochHeight ∧ e.epochHeight ≠ s.lastEpochHeight ∧
        s1.lastTotalBalance + e.attachedDeposit = e.accountLockedBalance + e.accountBalance) := by
    rcases pingRel_lastEpoch hp with h2 | h2
    · rcases hp with rfl | ⟨b, hp⟩
      · exact .inl ⟨rfl, rfl⟩
      · rw [internalPing_ok] at hp
        rcases hp with ⟨_, rfl, _⟩ | ⟨hne, _, _, h3, _, s2, h4, rfl⟩
        · exact .inl ⟨rfl, rfl⟩
        · exfalso
          unfold distributeIf at h4
          split at h4
          · rw [distribute_ok] at h4
            obtain ⟨fee, n, _, _, _, _, _, rfl⟩ := h4
            exact hne h2.symm
          · rw [pure_ok] at h4; subst h4; exact hne h2.symm
    · rcases hp with rfl | ⟨b, hp⟩
      · exact .inl ⟨rfl, rfl⟩
      · rw [internalPing_ok] at hp
        rcases hp with ⟨_, rfl, _⟩ | ⟨hne, _, _, h3, _, s2, h4, rfl⟩
        · exact .inl ⟨rfl, rfl⟩
        · refine .inr ⟨h2, fun e => hne e.symm, ?_⟩
          simp only; omega
  have fin : ∀ {s'' : Pool} {x y : Nat}, s''.lastEpochHeight = s1.lastEpochHeight →
      s''.lastTotalBalance + x = s1.lastTotalBalance + e.attachedDeposit → x = y →
      (s''.lastEpochHeight = s.lastEpochHeight ∧
        s''.lastTotalBalance + y = s.lastTotalBalance + e.attachedDeposit) ∨
      (s''.lastEpochHeight = e.epochHeight ∧ e.epochHeight ≠ s.lastEpochHeight ∧
        s''.lastTotalBalance + y = e.accountLockedBalance + e.accountBalance) := by
    rintro s'' x y h2 h3 rfl
    rw [h2]
    rcases h1 with ⟨h4, h5⟩ | ⟨h4, h6, h5⟩
    · exact .inl ⟨h4, by omega⟩
    · exact .inr ⟨h4, h6, by omega⟩
  cases hb with
  | idle _ ha hn => exact fin rfl (by rw [ha]) (paidOut_noTransfer hn).symm
  | admin _ _ _ _ ha hn => exact fin rfl (by simp only; rw [ha]) (paidOut_noTransfer hn).symm
  | deposit hd hn =>
    obtain ⟨of, _, _, _, h5, _⟩ := deposit_facts hpf.inv hd
    exact fin of.lastEpoch (by omega) (paidOut_noTransfer hn).symm
  | depositStake hd hs hn =>
    obtain ⟨of, _, _, _, h5, _⟩ := deposit_facts hpf.inv hd
    obtain ⟨sf, h6, _⟩ := stake_facts of.inv hs
    exact fin (sf.lastEpoch.trans of.lastEpoch) (by omega) (paidOut_noTransfer hn).symm
  | @withdraw c s' x effs effs' _ ha hw hn =>
    obtain ⟨of, rfl, _, _, h5, _⟩ := withdraw_facts hpf.inv hw
    refine fin (x := x) of.lastEpoch (by omega) ?_
    rw [paidOut_append, paidOut_noTransfer hn]; simp [paidOut]
  | stake _ ha hs hn =>
    obtain ⟨sf, h6, _⟩ := stake_facts hpf.inv hs
    exact fin sf.lastEpoch (by rw [h6, ha]) (paidOut_noTransfer hn).symm
  | unstake _ ha hs hn =>
    obtain ⟨sf, h6, _⟩ := unstake_facts hpf.inv hs
    exact fin sf.lastEpoch (by rw [h6, ha]) (paidOut_noTransfer hn).symm

/-- Calls that start with the reward distribution: all but `vote` and the callback. -/
def Call.pings : Call → Bool
  | .vote _ _ | .onStakeAction => false
  | _ => true

/-- An unstaking call. -/
def Call.isUnstake : Call → Bool
  | .unstake _ | .unstakeAll => true
  | _ => false

/-- A withdrawing call. -/
def Call.isWithdraw : Call → Bool
  | .withdraw _ | .withdrawAll => true
  | _ => false

/-- How a successful call changes the unlock epoch of the caller. -/
theorem exec_epoch {s0 : Nat} {e : Env} {s s' : Pool} {c : Call} {effs : List Eff}
    (hi : PoolInv s0 s) (h : exec e s c = .ok (s', effs)) :
    (c.isUnstake = true →
      (getAcc s' e.predecessor).unstakedAvailableEpoch = e.epochHeight + 4 ∧
      0 < (getAcc s' e.predecessor).unstaked) ∧
    (c.isWithdraw = true → (getAcc s e.predecessor).unstakedAvailableEpoch ≤ e.epochHeight) ∧
    (c.isUnstake = false →
      (getAcc s' e.predecessor).unstakedAvailableEpoch ≤
        (getAcc s e.predecessor).unstakedAvailableEpoch) ∧
    (c.isUnstake = false → c.isWithdraw = false →
      (0 < (getAcc s e.predecessor).unstaked ∨ 0 < (getAcc s e.predecessor).stakeShares) →
      (getAcc s' e.predecessor).unstakedAvailableEpoch =
        (getAcc s e.predecessor).unstakedAvailableEpoch ∧
      (0 < (getAcc s' e.predecessor).unstaked ∨ 0 < (getAcc s' e.predecessor).stakeShares)) := by
  obtain ⟨s1, hp, hb⟩ := exec_cases h
  have hpf := pingRel_facts hi hp
  have he := pingRel_epochs hp e.predecessor
  have hu := hpf.unstaked e.predecessor
  have hs := hpf.shares e.predecessor
  cases hb with
  | @idle c _ hr _ hn =>
    have : c.isUnstake = false := by cases c <;> simp_all [Call.isRounding, Call.isUnstake]
    by_cases hw : c.isWithdraw = true
    · exfalso
      clear hp hpf he hu hs
      cases c <;> simp [Call.isWithdraw] at hw
      · simp only [exec, withdrawAll, bind_ok, notPayable_ok, pure_ok, Prod.exists,
          Prod.mk.injEq] at h
        obtain ⟨_, _, s3, b, h1, s2, e1, h2, _, h3, rfl, rfl⟩ := h
        have := (withdraw_facts (ping_facts hi h1).inv h2).2.1
        subst this
        exact hn _ _ (List.mem_append_left _ List.mem_cons_self)
      · simp only [exec, withdraw, bind_ok, notPayable_ok, pure_ok, Prod.exists,
          Prod.mk.injEq] at h
        obtain ⟨_, _, s3, b, h1, s2, e1, h2, _, h3, rfl, rfl⟩ := h
        have := (withdraw_facts (ping_facts hi h1).inv h2).2.1
        subst this
        exact hn _ _ (List.mem_append_left _ List.mem_cons_self)
    · refine ⟨by simp [this], by simp [hw], fun _ => by omega, fun _ _ h => ⟨he, ?_⟩⟩
      omega
  | @admin c _ key fee pa hr _ hn =>
    have : c.isUnstake = false := by cases c <;> simp_all [Call.isRounding, Call.isUnstake]
    have hg : getAcc { s1 with stakePublicKey := key, rewardFee := fee, paused := pa }
        e.predecessor = getAcc s1 e.predecessor := rfl
    rw [hg]
    by_cases hw : c.isWithdraw = true
    · exfalso
      clear hp hpf he hu hs
      cases c <;> simp [Call.isWithdraw] at hw
      · simp only [exec, withdrawAll, bind_ok, notPayable_ok, pure_ok, Prod.exists,
          Prod.mk.injEq] at h
        obtain ⟨_, _, s3, b, h1, s2, e1, h2, _, h3, _, rfl⟩ := h
        have := (withdraw_facts (ping_facts hi h1).inv h2).2.1
        subst this
        exact hn _ _ (List.mem_append_left _ List.mem_cons_self)
      · simp only [exec, withdraw, bind_ok, notPayable_ok, pure_ok, Prod.exists,
          Prod.mk.injEq] at h
        obtain ⟨_, _, s3, b, h1, s2, e1, h2, _, h3, _, rfl⟩ := h
        have := (withdraw_facts (ping_facts hi h1).inv h2).2.1
        subst this
        exact hn _ _ (List.mem_append_left _ List.mem_cons_self)
    · refine ⟨by simp [this], by simp [hw], fun _ => by omega, fun _ _ h => ⟨he, ?_⟩⟩
      omega
  | deposit hd hn =>
    obtain ⟨_, _, _, _, _, _, hac⟩ := deposit_facts hpf.inv hd
    refine ⟨by simp [Call.isUnstake], by simp [Call.isWithdraw], fun _ => ?_, fun _ _ h => ?_⟩
    · rw [hac, ← he]; exact norm_epoch_le _
    · rw [hac, norm_epoch _ (by simp only; omega), norm_unstaked, norm_shares]
      exact ⟨he, by simp only; omega⟩
  | depositStake hd hs' hn =>
    obtain ⟨of, _, _, _, _, _, hac⟩ := deposit_facts hpf.inv hd
    obtain ⟨_, _, n, _, _, _, hn0, _, _, _, _, _, _, _, _, hac2⟩ := stake_facts of.inv hs'
    refine ⟨by simp [Call.isUnstake], by simp [Call.isWithdraw], fun _ => ?_, fun _ _ h => ?_⟩
    · rw [hac2, ← he]; simp only; rw [hac]; exact norm_epoch_le _
    · rw [hac2]
      simp only
      rw [hac, norm_epoch _ (by simp only; omega)]
      exact ⟨he, by omega⟩
  | @withdraw c s' x effs effs' hc ha hw hn =>
    obtain ⟨_, _, _, _, _, _, _, _, _, hle, hac⟩ := withdraw_facts hpf.inv hw
    have hcw : c.isWithdraw = true := by rcases hc with rfl | ⟨rfl, _⟩ <;> rfl
    have hcu : c.isUnstake = false := by rcases hc with rfl | ⟨rfl, _⟩ <;> rfl
    refine ⟨by simp [hcu], fun _ => by omega, fun _ => ?_, by simp [hcw]⟩
    rw [hac, ← he]; exact norm_epoch_le _
  | @stake c s' x effs hc ha hs' hn =>
    obtain ⟨_, _, n, _, _, _, hn0, _, _, _, _, _, _, _, _, hac⟩ := stake_facts hpf.inv hs'
    have hcw : c.isWithdraw = false := by rcases hc with rfl | ⟨rfl, _⟩ <;> rfl
    have hcu : c.isUnstake = false := by rcases hc with rfl | ⟨rfl, _⟩ <;> rfl
    refine ⟨by simp [hcu], by simp [hcw], fun _ => ?_, fun _ _ _ => ?_⟩
    · rw [hac]; simp only; omega
    · rw [hac]; exact ⟨he, .inr (by simp only; omega)⟩
  | @unstake c s' x effs hc ha hs' hn =>
    obtain ⟨_, _, n, rcv, _, _, _, hr0, _, _, _, _, _, _, _, hac⟩ := unstake_facts hpf.inv hs'
    have hcw : c.isWithdraw = false := by rcases hc with rfl | ⟨rfl, _⟩ <;> rfl
    have hcu : c.isUnstake = true := by rcases hc with rfl | ⟨rfl, _⟩ <;> rfl
    refine ⟨fun _ => ?_, by simp [hcw], by simp [hcu], by simp [hcu]⟩
    rw [hac]
    exact ⟨rfl, by simp only; omega⟩

/-- Only withdrawals pay. -/
theorem exec_paid {e : Env} {s s' : Pool} {c : Call} {effs : List Eff}
    (h : exec e s c = .ok (s', effs)) (hc : c.isWithdraw = false) :
    paidOut effs = 0 := by
  obtain ⟨s1, hp, hb⟩ := exec_cases h
  cases hb with
  | idle _ _ hn => exact paidOut_noTransfer hn
  | admin _ _ _ _ _ hn => exact paidOut_noTransfer hn
  | deposit _ hn => exact paidOut_noTransfer hn
  | depositStake _ _ hn => exact paidOut_noTransfer hn
  | withdraw hw => rcases hw with rfl | ⟨rfl, _⟩ <;> cases hc
  | stake _ _ _ hn => exact paidOut_noTransfer hn
  | unstake _ _ _ hn => exact paidOut_noTransfer hn

/-- The state after the reward distribution: everything of `internal_ping` in one place. -/
theorem ping_exact {e : Env} {s s1 : Pool} {b : Bool} (h : internalPing e s = .ok (s1, b)) :
    (s.lastEpochHeight = e.epochHeight ∧ s1 = s ∧ b = false) ∨
    (s.lastEpochHeight ≠ e.epochHeight ∧ b = true ∧ s1.lastEpochHeight = e.epochHeight) := by
  have h' := h
  rw [internalPing_ok] at h'
  rcases h' with h' | ⟨h1, h2, _, _, _, s2, h4, rfl⟩
  · exact .inl h'
  · refine .inr ⟨h1, h2, ?_⟩
    unfold distributeIf at h4
    split at h4
    · rw [distribute_ok] at h4
      obtain ⟨fee, n, _, _, _, _, _, rfl⟩ := h4
      rfl
    · rw [pure_ok] at h4; subst h4; rfl

/-- After a successful call that starts with a ping, the pool has distributed in this epoch. -/
theorem exec_lastEpoch {s0 : Nat} {e : Env} {s s' : Pool} {c : Call} {effs : List Eff}
    (hi : PoolInv s0 s) (h : exec e s c = .ok (s', effs)) (hc : c.pings = true) :
    s'.lastEpochHeight = e.epochHeight := by
  have key : ∀ {s1 b}, internalPing e s = .ok (s1, b) →
      PoolInv s0 s1 ∧ s1.lastEpochHeight = e.epochHeight := by
    intro s1 b h1
    refine ⟨(ping_facts hi h1).inv, ?_⟩
    rcases ping_exact h1 with ⟨h2, rfl, _⟩ | ⟨_, _, h2⟩ <;> exact h2
  cases c with
  | ping =>
    simp only [exec, ping, bind_ok, notPayable_ok, pure_ok, Prod.exists, Prod.mk.injEq] at h
    obtain ⟨_, h0, s1, b, h1, effs1, h2, rfl, rfl⟩ := h
    exact (key h1).2
  | deposit =>
    simp only [exec, deposit, bind_ok, pure_ok, Prod.exists, Prod.mk.injEq] at h
    obtain ⟨s1, b, h1, s2, x, h2, effs1, h3, rfl, rfl⟩ := h
    exact (deposit_facts (key h1).1 h2).1.lastEpoch.trans (key h1).2
  | depositAndStake =>
    simp only [exec, depositAndStake, bind_ok, pure_ok, Prod.exists, Prod.mk.injEq] at h
    obtain ⟨s1, b, h1, s2, x, h2, s3, h3, effs1, h4, rfl, rfl⟩ := h
    have of := (deposit_facts (key h1).1 h2).1
    exact ((stake_facts of.inv h3).1.lastEpoch.trans of.lastEpoch).trans (key h1).2
  | withdrawAll =>
    simp only [exec, withdrawAll, bind_ok, notPayable_ok, pure_ok, Prod.exists,
      Prod.mk.injEq] at h
    obtain ⟨_, h0, s1, b, h1, s2, effs1, h2, effs2, h3, rfl, rfl⟩ := h
    exact (withdraw_facts (key h1).1 h2).1.lastEpoch.trans (key h1).2
  | withdraw x =>
    simp only [exec, withdraw, bind_ok, notPayable_ok, pure_ok, Prod.exists,
      Prod.mk.injEq] at h
    obtain ⟨_, h0, s1, b, h1, s2, effs1, h2, effs2, h3, rfl, rfl⟩ := h
    exact (withdraw_facts (key h1).1 h2).1.lastEpoch.trans (key h1).2
  | stakeAll =>
    simp only [exec, stakeAll, bind_ok, notPayable_ok, pure_ok, Prod.exists, Prod.mk.injEq] at h
    obtain ⟨_, h0, s1, b, h1, s2, h2, effs1, h4, rfl, rfl⟩ := h
    exact (stake_facts (key h1).1 h2).1.lastEpoch.trans (key h1).2
  | stake x =>
    simp only [exec, stake, bind_ok, notPayable_ok, pure_ok, Prod.exists, Prod.mk.injEq] at h
    obtain ⟨_, h0, s1, b, h1, s2, h2, effs1, h4, rfl, rfl⟩ := h
    exact (stake_facts (key h1).1 h2).1.lastEpoch.trans (key h1).2
  | unstakeAll =>
    simp only [exec, unstakeAll, bind_ok, notPayable_ok, pure_ok, Prod.exists, Prod.mk.injEq] at h
    obtain ⟨_, h0, s1, b, h1, x, hx, s2, h2, effs1, h4, rfl, rfl⟩ := h
    exact (unstake_facts (key h1).1 h2).1.lastEpoch.trans (key h1).2
  | unstake x =>
    simp only [exec, unstake, bind_ok, notPayable_ok, pure_ok, Prod.exists, Prod.mk.injEq] at h
    obtain ⟨_, h0, s1, b, h1, s2, h2, effs1, h4, rfl, rfl⟩ := h
    exact (unstake_facts (key h1).1 h2).1.lastEpoch.trans (key h1).2
  | onStakeAction => cases hc
  | updateStakingKey k =>
    simp only [exec, updateStakingKey, bind_ok, notPayable_ok, assertOwner_ok, pure_ok,
      Prod.exists, Prod.mk.injEq] at h
    obtain ⟨_, h0, _, ho, s1, b, h1, effs1, h4, rfl, rfl⟩ := h
    exact (key h1).2
  | updateRewardFeeFraction f =>
    simp only [exec, updateRewardFeeFraction, bind_ok, notPayable_ok, assertOwner_ok, pure_ok,
      Fee.assertValid_ok, Fee.decode_ok, Prod.exists, Prod.mk.injEq] at h
    obtain ⟨_, h0, _, hd, _, ho, _, hf, s1, b, h1, effs1, h3, rfl, rfl⟩ := h
    exact (key h1).2
  | vote a b => cases hc
  | pauseStaking =>
    simp only [exec, pauseStaking, bind_ok, notPayable_ok, assertOwner_ok, require_ok, pure_ok,
      Prod.exists, Prod.mk.injEq] at h
    obtain ⟨_, h0, _, ho, _, _, s1, b, h1, _, _, rfl, rfl⟩ := h
    exact (key h1).2
  | resumeStaking =>
    simp only [exec, resumeStaking, bind_ok, notPayable_ok, assertOwner_ok, require_ok, pure_ok,
      Prod.exists, Prod.mk.injEq] at h
    obtain ⟨_, h0, _, ho, _, _, s1, b, h1, effs1, h4, rfl, rfl⟩ := h
    exact (key h1).2

/-- Stake actions created by a successful call, and the pause flag. -/
theorem exec_stakes {s0 : Nat} {e : Env} {s s' : Pool} {c : Call} {effs : List Eff}
    (hi : PoolInv s0 s) (h : exec e s c = .ok (s', effs)) :
    (s'.paused = s.paused ∨ (c = .pauseStaking ∧ s'.paused = true ∧ e.predecessor = s.ownerId) ∨
      (c = .resumeStaking ∧ s'.paused = false ∧ e.predecessor = s.ownerId)) ∧
    (∀ amt k cb, Eff.stake amt k cb ∈ effs →
      e.validPublicKey k = true ∧ k = s'.stakePublicKey ∧
      (amt = 0 ∨ (amt = s'.totalStakedBalance ∧ s'.paused = false ∧ cb = true))) := by
  have key : ∀ {s1 b}, internalPing e s = .ok (s1, b) →
      PoolInv s0 s1 ∧ s1.paused = s.paused :=
    fun h1 => ⟨(ping_facts hi h1).inv, (ping_facts hi h1).paused⟩
  have rs : ∀ {s2 : Pool} {l : List Eff}, internalRestake e s2 = .ok l →
      ∀ amt k cb, Eff.stake amt k cb ∈ l →
      e.validPublicKey k = true ∧ k = s2.stakePublicKey ∧
      (amt = 0 ∨ (amt = s2.totalStakedBalance ∧ s2.paused = false ∧ cb = true)) := by
    intro s2 l hl amt k cb hm
    rw [internalRestake_ok] at hl
    rcases hl with ⟨_, rfl⟩ | ⟨h1, h2, rfl⟩
    · simp at hm
    · simp only [List.mem_singleton, Eff.stake.injEq] at hm
      obtain ⟨rfl, rfl, rfl⟩ := hm
      exact ⟨h2, rfl, .inr ⟨rfl, h1, rfl⟩⟩
  have rsIf : ∀ {s2 : Pool} {b : Bool} {l : List Eff}, restakeIf e s2 b = .ok l →
      ∀ amt k cb, Eff.stake amt k cb ∈ l →
      e.validPublicKey k = true ∧ k = s2.stakePublicKey ∧
      (amt = 0 ∨ (amt = s2.totalStakedBalance ∧ s2.paused = false ∧ cb = true)) := by
    intro s2 b l hl
    rw [restakeIf_ok] at hl
    rcases hl with ⟨_, rfl⟩ | ⟨_, hl⟩
    · simp
    · exact rs hl
  cases c with
  | ping =>
    simp only [exec, ping, bind_ok, notPayable_ok, pure_ok, Prod.exists, Prod.mk.injEq] at h
    obtain ⟨_, h0, s1, b, h1, effs1, h2, rfl, rfl⟩ := h
    exact ⟨.inl (key h1).2, rsIf h2⟩
  | deposit =>
    simp only [exec, deposit, bind_ok, pure_ok, Prod.exists, Prod.mk.injEq] at h
    obtain ⟨s1, b, h1, s2, x, h2, effs1, h3, rfl, rfl⟩ := h
    exact ⟨.inl ((deposit_facts (key h1).1 h2).1.paused.trans (key h1).2), rsIf h3⟩
  | depositAndStake =>
    simp only [exec, depositAndStake, bind_ok, pure_ok, Prod.exists, Prod.mk.injEq] at h
    obtain ⟨s1, b, h1, s2, x, h2, s3, h3, effs1, h4, rfl, rfl⟩ := h
    have of := (deposit_facts (key h1).1 h2).1
    exact ⟨.inl (((stake_facts of.inv h3).1.paused.trans of.paused).trans (key h1).2), rs h4⟩
  | withdrawAll =>
    simp only [exec, withdrawAll, bind_ok, notPayable_ok, pure_ok, Prod.exists,
      Prod.mk.injEq] at h
    obtain ⟨_, h0, s1, b, h1, s2, effs1, h2, effs2, h3, rfl, rfl⟩ := h
    refine ⟨.inl ((withdraw_facts (key h1).1 h2).1.paused.trans (key h1).2), ?_⟩
    have := (withdraw_facts (key h1).1 h2).2.1
    subst this
    intro amt k cb hm
    simp only [List.cons_append, List.nil_append, List.mem_cons, reduceCtorEq, false_or] at hm
    exact rsIf h3 amt k cb hm
  | withdraw x =>
    simp only [exec, withdraw, bind_ok, notPayable_ok, pure_ok, Prod.exists,
      Prod.mk.injEq] at h
    obtain ⟨_, h0, s1, b, h1, s2, effs1, h2, effs2, h3, rfl, rfl⟩ := h
    refine ⟨.inl ((withdraw_facts (key h1).1 h2).1.paused.trans (key h1).2), ?_⟩
    have := (withdraw_facts (key h1).1 h2).2.1
    subst this
    intro amt k cb hm
    simp only [List.cons_append, List.nil_append, List.mem_cons, reduceCtorEq, false_or] at hm
    exact rsIf h3 amt k cb hm
  | stakeAll =>
    simp only [exec, stakeAll, bind_ok, notPayable_ok, pure_ok, Prod.exists, Prod.mk.injEq] at h
    obtain ⟨_, h0, s1, b, h1, s2, h2, effs1, h4, rfl, rfl⟩ := h
    exact ⟨.inl ((stake_facts (key h1).1 h2).1.paused.trans (key h1).2), rs h4⟩
  | stake x =>
    simp only [exec, stake, bind_ok, notPayable_ok, pure_ok, Prod.exists, Prod.mk.injEq] at h
    obtain ⟨_, h0, s1, b, h1, s2, h2, effs1, h4, rfl, rfl⟩ := h
    exact ⟨.inl ((stake_facts (key h1).1 h2).1.paused.trans (key h1).2), rs h4⟩
  | unstakeAll =>
    simp only [exec, unstakeAll, bind_ok, notPayable_ok, pure_ok, Prod.exists, Prod.mk.injEq] at h
    obtain ⟨_, h0, s1, b, h1, x, hx, s2, h2, effs1, h4, rfl, rfl⟩ := h
    exact ⟨.inl ((unstake_facts (key h1).1 h2).1.paused.trans (key h1).2), rs h4⟩
  | unstake x =>
    simp only [exec, unstake, bind_ok, notPayable_ok, pure_ok, Prod.exists, Prod.mk.injEq] at h
    obtain ⟨_, h0, s1, b, h1, s2, h2, effs1, h4, rfl, rfl⟩ := h
    exact ⟨.inl ((unstake_facts (key h1).1 h2).1.paused.trans (key h1).2), rs h4⟩
  | onStakeAction =>
    simp only [exec, onStakeAction, bind_ok, notPayable_ok, require_ok] at h
    obtain ⟨_, h0, _, h1, _, h2, h3⟩ := h
    split at h3
    · simp only [bind_ok, require_ok, pure_ok, Prod.mk.injEq] at h3
      obtain ⟨_, hk, rfl, rfl⟩ := h3
      refine ⟨.inl rfl, ?_⟩
      intro amt k cb hm
      simp only [List.mem_singleton, Eff.stake.injEq] at hm
      obtain ⟨rfl, rfl, rfl⟩ := hm
      exact ⟨hk, rfl, .inl rfl⟩
    · simp only [pure_ok, Prod.mk.injEq] at h3
      obtain ⟨rfl, rfl⟩ := h3
      exact ⟨.inl rfl, by simp⟩
  | updateStakingKey k =>
    simp only [exec, updateStakingKey, bind_ok, notPayable_ok, assertOwner_ok, pure_ok,
      Prod.exists, Prod.mk.injEq] at h
    obtain ⟨_, h0, _, ho, s1, b, h1, effs1, h4, rfl, rfl⟩ := h
    exact ⟨.inl (key h1).2, rs h4⟩
  | updateRewardFeeFraction f =>
    simp only [exec, updateRewardFeeFraction, bind_ok, notPayable_ok, assertOwner_ok, pure_ok,
      Fee.assertValid_ok, Fee.decode_ok, Prod.exists, Prod.mk.injEq] at h
    obtain ⟨_, h0, _, hd, _, ho, _, hf, s1, b, h1, effs1, h3, rfl, rfl⟩ := h
    exact ⟨.inl (key h1).2, rsIf h3⟩
  | vote a b =>
    simp only [exec, vote, bind_ok, notPayable_ok, assertOwner_ok, require_ok, pure_ok,
      Prod.mk.injEq] at h
    obtain ⟨_, h0, _, ho, _, _, rfl, rfl⟩ := h
    exact ⟨.inl rfl, by simp⟩
  | pauseStaking =>
    simp only [exec, pauseStaking, bind_ok, notPayable_ok, assertOwner_ok, require_ok, pure_ok,
      Prod.exists, Prod.mk.injEq] at h
    obtain ⟨_, h0, _, ho, _, _, s1, b, h1, _, hk, rfl, rfl⟩ := h
    refine ⟨.inr (.inl ⟨rfl, rfl, ho⟩), ?_⟩
    intro amt k cb hm
    simp only [List.mem_singleton, Eff.stake.injEq] at hm
    obtain ⟨rfl, rfl, rfl⟩ := hm
    exact ⟨hk, rfl, .inl rfl⟩
  | resumeStaking =>
    simp only [exec, resumeStaking, bind_ok, notPayable_ok, assertOwner_ok, require_ok, pure_ok,
      Prod.exists, Prod.mk.injEq] at h
    obtain ⟨_, h0, _, ho, _, _, s1, b, h1, effs1, h4, rfl, rfl⟩ := h
    exact ⟨.inr (.inr ⟨rfl, rfl, ho⟩), rs h4⟩

end Verif.StakingPool
