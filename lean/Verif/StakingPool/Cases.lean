import Verif.StakingPool.Lemmas

/-! # Decomposition of every successful call: reward distribution, then one elementary operation -/

namespace Verif.StakingPool

open Verif

/-- The state after the (possible) reward distribution at the beginning of a call. -/
def PingRel (e : Env) (s s1 : Pool) : Prop := s1 = s ∨ ∃ b, internalPing e s = .ok (s1, b)

/-- No token transfer among the effects. -/
def NoTransfer (effs : List Eff) : Prop := ∀ r x, Eff.transfer r x ∉ effs

/-- A fee fraction the contract accepts. -/
structure Fee.Valid (f : Fee) : Prop where
  nonzero : f.denominator ≠ 0
  le : f.numerator ≤ f.denominator
  u32 : f.numerator < two32

/-- The elementary operations performed after the reward distribution. -/
inductive Body (e : Env) (s1 : Pool) : Call → Pool → List Eff → Prop where
  | idle {c effs} : c.isRounding = false → e.attachedDeposit = 0 → NoTransfer effs →
      Body e s1 c s1 effs
  | admin {c effs} (key : PublicKey) (fee : Fee) (paused : Bool) :
      c.isRounding = false → e.attachedDeposit = 0 → NoTransfer effs →
      e.predecessor = s1.ownerId →
      (fee = s1.rewardFee ∨ fee.Valid) →
      Body e s1 c { s1 with stakePublicKey := key, rewardFee := fee, paused := paused } effs
  | deposit {s' x effs} : internalDeposit e s1 = .ok (s', x) → NoTransfer effs →
      Body e s1 .deposit s' effs
  | depositStake {s2 s' x effs} : internalDeposit e s1 = .ok (s2, x) →
      internalStake e s2 x = .ok s' → NoTransfer effs → Body e s1 .depositAndStake s' effs
  | withdraw {c s' x effs effs'} :
      (c = .withdraw x ∨ (c = .withdrawAll ∧ x = (getAcc s1 e.predecessor).unstaked)) →
      e.attachedDeposit = 0 → internalWithdraw e s1 x = .ok (s', effs) → NoTransfer effs' →
      Body e s1 c s' (effs ++ effs')
  | stake {c s' x effs} :
      (c = .stake x ∨ (c = .stakeAll ∧ x = (getAcc s1 e.predecessor).unstaked)) →
      e.attachedDeposit = 0 → internalStake e s1 x = .ok s' → NoTransfer effs →
      Body e s1 c s' effs
  | unstake {c s' x effs} :
      (c = .unstake x ∨
        (c = .unstakeAll ∧ stakedAmountDown s1 (getAcc s1 e.predecessor).stakeShares = .ok x)) →
      e.attachedDeposit = 0 → innerUnstake e s1 x = .ok s' → NoTransfer effs →
      Body e s1 c s' effs

theorem internalRestake_ok {e : Env} {s : Pool} {effs : List Eff} :
    internalRestake e s = .ok effs ↔
      (s.paused = true ∧ effs = []) ∨
      (s.paused = false ∧ e.validPublicKey s.stakePublicKey = true ∧
        effs = [.stake s.totalStakedBalance s.stakePublicKey true]) := by
  unfold internalRestake
  cases s.paused
  · simp only [Bool.false_eq_true, if_false, bind_ok, require_ok, pure_ok, false_and, true_and,
      false_or]
    constructor
    · rintro ⟨_, h, rfl⟩; exact ⟨h, rfl⟩
    · rintro ⟨h, rfl⟩; exact ⟨(), h, rfl⟩
  · simp [pure_ok]

theorem restakeIf_ok {e : Env} {s : Pool} {b : Bool} {effs : List Eff} :
    restakeIf e s b = .ok effs ↔
      (b = false ∧ effs = []) ∨ (b = true ∧ internalRestake e s = .ok effs) := by
  unfold restakeIf
  cases b
  · simp [pure_ok]
  · simp

theorem internalRestake_noTransfer {e : Env} {s : Pool} {effs : List Eff}
    (h : internalRestake e s = .ok effs) : NoTransfer effs := by
  rw [internalRestake_ok] at h
  rcases h with ⟨_, rfl⟩ | ⟨_, _, rfl⟩ <;> simp [NoTransfer]

theorem restakeIf_noTransfer {e : Env} {s : Pool} {b : Bool} {effs : List Eff}
    (h : restakeIf e s b = .ok effs) : NoTransfer effs := by
  rw [restakeIf_ok] at h
  rcases h with ⟨_, rfl⟩ | ⟨_, h⟩
  · simp [NoTransfer]
  · exact internalRestake_noTransfer h

theorem assertOwner_ok {e : Env} {s : Pool} {u : Unit} :
    assertOwner e s = .ok u ↔ e.predecessor = s.ownerId := by
  simp [assertOwner]

theorem notPayable_ok {e : Env} {u : Unit} : notPayable e = .ok u ↔ e.attachedDeposit = 0 := by
  simp [notPayable]

theorem Fee.assertValid_ok {f : Fee} {u : Unit} :
    f.assertValid = .ok u ↔ f.denominator ≠ 0 ∧ f.numerator ≤ f.denominator := by
  simp only [Fee.assertValid, bind_ok, require_ok]
  constructor
  · rintro ⟨_, h1, h2⟩; exact ⟨h1, h2⟩
  · rintro ⟨h1, h2⟩; exact ⟨(), h1, h2⟩

theorem Fee.decode_ok {f : Fee} {u : Unit} :
    f.decode = .ok u ↔ f.numerator < two32 ∧ f.denominator < two32 := by
  simp [Fee.decode]

theorem distributed_ownerId (s : Pool) (fee n r : Nat) :
    (distributed s fee n r).ownerId = s.ownerId := rfl

theorem internalPing_ownerId {e : Env} {s s1 : Pool} {b : Bool}
    (h : internalPing e s = .ok (s1, b)) : s1.ownerId = s.ownerId := by
  rw [internalPing_ok] at h
  rcases h with ⟨_, rfl, _⟩ | ⟨_, _, _, _, _, s2, h, rfl⟩
  · rfl
  · unfold distributeIf at h
    split at h
    · rw [distribute_ok] at h
      obtain ⟨fee, n, _, _, _, _, _, rfl⟩ := h
      simp [distributed_ownerId]
    · rw [pure_ok] at h; subst h; rfl

theorem exec_cases {e : Env} {s s' : Pool} {c : Call} {effs : List Eff}
    (h : exec e s c = .ok (s', effs)) : ∃ s1, PingRel e s s1 ∧ Body e s1 c s' effs := by
  cases c with
  | ping =>
    simp only [exec, ping, bind_ok, notPayable_ok, pure_ok, Prod.exists, Prod.mk.injEq] at h
    obtain ⟨_, h0, s1, b, h1, effs1, h2, rfl, rfl⟩ := h
    exact ⟨s1, .inr ⟨b, h1⟩, .idle rfl h0 (restakeIf_noTransfer h2)⟩
  | deposit =>
    simp only [exec, deposit, bind_ok, pure_ok, Prod.exists, Prod.mk.injEq] at h
    obtain ⟨s1, b, h1, s2, x, h2, effs1, h3, rfl, rfl⟩ := h
    exact ⟨s1, .inr ⟨b, h1⟩, .deposit h2 (restakeIf_noTransfer h3)⟩
  | depositAndStake =>
    simp only [exec, depositAndStake, bind_ok, pure_ok, Prod.exists, Prod.mk.injEq] at h
    obtain ⟨s1, b, h1, s2, x, h2, s3, h3, effs1, h4, rfl, rfl⟩ := h
    exact ⟨s1, .inr ⟨b, h1⟩, .depositStake h2 h3 (internalRestake_noTransfer h4)⟩
  | withdrawAll =>
    simp only [exec, withdrawAll, bind_ok, notPayable_ok, pure_ok, Prod.exists,
      Prod.mk.injEq] at h
    obtain ⟨_, h0, s1, b, h1, s2, effs1, h2, effs2, h3, rfl, rfl⟩ := h
    exact ⟨s1, .inr ⟨b, h1⟩, .withdraw (.inr ⟨rfl, rfl⟩) h0 h2 (restakeIf_noTransfer h3)⟩
  | withdraw x =>
    simp only [exec, withdraw, bind_ok, notPayable_ok, pure_ok, Prod.exists,
      Prod.mk.injEq] at h
    obtain ⟨_, h0, s1, b, h1, s2, effs1, h2, effs2, h3, rfl, rfl⟩ := h
    exact ⟨s1, .inr ⟨b, h1⟩, .withdraw (.inl rfl) h0 h2 (restakeIf_noTransfer h3)⟩
  | stakeAll =>
    simp only [exec, stakeAll, bind_ok, notPayable_ok, pure_ok, Prod.exists, Prod.mk.injEq] at h
    obtain ⟨_, h0, s1, b, h1, s2, h2, effs1, h3, rfl, rfl⟩ := h
    exact ⟨s1, .inr ⟨b, h1⟩, .stake (.inr ⟨rfl, rfl⟩) h0 h2 (internalRestake_noTransfer h3)⟩
  | stake x =>
    simp only [exec, stake, bind_ok, notPayable_ok, pure_ok, Prod.exists, Prod.mk.injEq] at h
    obtain ⟨_, h0, s1, b, h1, s2, h2, effs1, h3, rfl, rfl⟩ := h
    exact ⟨s1, .inr ⟨b, h1⟩, .stake (.inl rfl) h0 h2 (internalRestake_noTransfer h3)⟩
  | unstakeAll =>
    simp only [exec, unstakeAll, bind_ok, notPayable_ok, pure_ok, Prod.exists, Prod.mk.injEq] at h
    obtain ⟨_, h0, s1, b, h1, x, hx, s2, h2, effs1, h3, rfl, rfl⟩ := h
    exact ⟨s1, .inr ⟨b, h1⟩, .unstake (.inr ⟨rfl, hx⟩) h0 h2 (internalRestake_noTransfer h3)⟩
  | unstake x =>
    simp only [exec, unstake, bind_ok, notPayable_ok, pure_ok, Prod.exists, Prod.mk.injEq] at h
    obtain ⟨_, h0, s1, b, h1, s2, h2, effs1, h3, rfl, rfl⟩ := h
    exact ⟨s1, .inr ⟨b, h1⟩, .unstake (.inl rfl) h0 h2 (internalRestake_noTransfer h3)⟩
  | onStakeAction =>
    simp only [exec, onStakeAction, bind_ok, notPayable_ok, require_ok] at h
    obtain ⟨_, h0, _, h1, _, h2, h3⟩ := h
    refine ⟨s, .inl rfl, ?_⟩
    split at h3
    · simp only [bind_ok, require_ok, pure_ok, Prod.mk.injEq] at h3
      obtain ⟨_, _, rfl, rfl⟩ := h3
      exact .idle rfl h0 (by simp [NoTransfer])
    · simp only [pure_ok, Prod.mk.injEq] at h3
      obtain ⟨rfl, rfl⟩ := h3
      exact .idle rfl h0 (by simp [NoTransfer])
  | updateStakingKey k =>
    simp only [exec, updateStakingKey, bind_ok, notPayable_ok, assertOwner_ok, pure_ok,
      Prod.exists, Prod.mk.injEq] at h
    obtain ⟨_, h0, _, ho, s1, b, h1, effs1, h3, rfl, rfl⟩ := h
    exact ⟨s1, .inr ⟨b, h1⟩, .admin k s1.rewardFee s1.paused rfl h0 (internalRestake_noTransfer h3)
      (by rw [internalPing_ownerId h1]; exact ho) (.inl rfl)⟩
  | updateRewardFeeFraction f =>
    simp only [exec, updateRewardFeeFraction, bind_ok, notPayable_ok, assertOwner_ok, pure_ok,
      Fee.assertValid_ok, Fee.decode_ok, Prod.exists, Prod.mk.injEq] at h
    obtain ⟨_, h0, _, hd, _, ho, _, hf, s1, b, h1, effs1, h3, rfl, rfl⟩ := h
    exact ⟨s1, .inr ⟨b, h1⟩, .admin s1.stakePublicKey f s1.paused rfl h0
      (restakeIf_noTransfer h3) (by rw [internalPing_ownerId h1]; exact ho)
      (.inr ⟨hf.1, hf.2, hd.1⟩)⟩
  | vote a b =>
    simp only [exec, vote, bind_ok, notPayable_ok, assertOwner_ok, require_ok, pure_ok,
      Prod.mk.injEq] at h
    obtain ⟨_, h0, _, ho, _, _, rfl, rfl⟩ := h
    exact ⟨s, .inl rfl, .idle rfl h0 (by simp [NoTransfer])⟩
  | pauseStaking =>
    simp only [exec, pauseStaking, bind_ok, notPayable_ok, assertOwner_ok, require_ok, pure_ok,
      Prod.exists, Prod.mk.injEq] at h
    obtain ⟨_, h0, _, ho, _, _, s1, b, h1, _, _, rfl, rfl⟩ := h
    exact ⟨s1, .inr ⟨b, h1⟩, .admin s1.stakePublicKey s1.rewardFee true rfl h0
      (by simp [NoTransfer]) (by rw [internalPing_ownerId h1]; exact ho) (.inl rfl)⟩
  | resumeStaking =>
    simp only [exec, resumeStaking, bind_ok, notPayable_ok, assertOwner_ok, require_ok, pure_ok,
      Prod.exists, Prod.mk.injEq] at h
    obtain ⟨_, h0, _, ho, _, _, s1, b, h1, effs1, h3, rfl, rfl⟩ := h
    exact ⟨s1, .inr ⟨b, h1⟩, .admin s1.stakePublicKey s1.rewardFee false rfl h0
      (internalRestake_noTransfer h3) (by rw [internalPing_ownerId h1]; exact ho) (.inl rfl)⟩

end Verif.StakingPool
