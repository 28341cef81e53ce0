import Verif.StakingPool.WorldInv

/-! # No traps: calls succeed within the token supply -/

namespace Verif.StakingPool

open Verif

/-- Bounds that hold on the real network: NEAR supply is about 2^110 yocto; one unit of the guarantee
fund can be spent per rounding operation. -/
structure Bounded (w : World) : Prop where
  balance : w.liquid + w.locked < 2 ^ 120
  epoch : w.epoch < 2 ^ 63
  roundings : w.roundings ≤ 1000000000000

/-- Numeric situation of the contract state after the reward distribution. -/
structure Fits (s : Pool) : Prop where
  claims : s.totalStakedBalance + sumUnstaked s ≤ s.lastTotalBalance
  last : s.lastTotalBalance < 2 ^ 120

theorem Fits.T {s : Pool} (h : Fits s) : s.totalStakedBalance < 2 ^ 120 := by
  have := h.claims; have := h.last; omega

theorem Fits.U {s : Pool} (h : Fits s) (a : AccountId) : (getAcc s a).unstaked < 2 ^ 120 := by
  have := h.claims; have := h.last; have := unstaked_le_sum s a; omega

theorem fits_world {cfg : Cfg} {s0 : Nat} {w : World} (h : WInv cfg s0 w) (hb : Bounded w) :
    Fits w.pool := by
  have h1 := h.solv; have h2 := h.cover; have h3 := hb.balance; have h4 := hb.roundings
  unfold guaranteeFund at h1
  exact ⟨by omega, by omega⟩

theorem mul_lt_256 {a b : Nat} (ha : a < 2 ^ 121) (hb : b < 2 ^ 121) : a * b + 2 ^ 121 < two256 := by
  have h1 : a * b ≤ 2 ^ 121 * 2 ^ 121 := Nat.mul_le_mul (Nat.le_of_lt ha) (Nat.le_of_lt hb)
  have h2 : 2 ^ 121 * 2 ^ 121 + 2 ^ 121 < two256 := by unfold two256; norm_num
  omega

/-- Dividing by at least as much as one multiplies by. -/
theorem mul_div_le' {a b c : Nat} (h : a ≤ c) : a * b / c ≤ b := by
  rcases Nat.eq_zero_or_pos c with hc | hc
  · subst hc; simp
  · calc a * b / c ≤ c * b / c := Nat.div_le_div_right (Nat.mul_le_mul_right _ h)
      _ = b := Nat.mul_div_cancel_left _ hc

/-- `internal_ping` never panics within the bounds. -/
theorem ping_total {cfg : Cfg} {s0 : Nat} {w : World} (h : WInv cfg s0 w) (hb : Bounded w)
    (who : AccountId) (att : Nat) (res : List Bool) (hatt : att < 2 ^ 120) :
    ∃ s1 b, internalPing (mkEnv cfg w who att res) w.pool = .ok (s1, b) := by
  have hfit := fits_world h hb
  have hT := hfit.T
  have hbal := hb.balance
  have hcov := h.cover
  have hST := h.pool.price
  by_cases he : w.pool.lastEpochHeight = w.epoch
  · exact ⟨w.pool, false, internalPing_ok.mpr (.inl ⟨he, rfl, rfl⟩)⟩
  · have e128 : (two128 : Nat) = 2 ^ 128 := rfl
    have hsub : w.locked + (w.liquid + att) - att = w.liquid + w.locked := by omega
    have key : ∃ s1, distributeIf { w.pool with lastEpochHeight := w.epoch }
        (w.locked + (w.liquid + att) - att - w.pool.lastTotalBalance) = .ok s1 := by
      rw [hsub]
      unfold distributeIf
      split
      · generalize hr : w.liquid + w.locked - w.pool.lastTotalBalance = r
        have hr120 : r < 2 ^ 120 := by omega
        have hfee := h.pool.fee
        generalize hfe : w.pool.rewardFee.numerator * r / w.pool.rewardFee.denominator = fee
        have hfr : fee ≤ r := by rw [← hfe]; exact mul_div_le' hfee.le
        have hmul : w.pool.rewardFee.multiply r = .ok fee := by
          rw [multiply_ok]
          refine ⟨?_, hfee.nonzero, hfe.symm, by omega⟩
          have h32 := hfee.u32
          have : w.pool.rewardFee.numerator < 2 ^ 121 := by unfold two32 at h32; omega
          have := mul_lt_256 this (b := r) (by omega)
          omega
        generalize hn : w.pool.totalStakeShares * fee / (w.pool.totalStakedBalance + (r - fee)) = n
        have hnle : n ≤ fee := by
          rw [← hn]; exact mul_div_le' (by omega)
        refine ⟨_, distribute_ok.mpr ⟨fee, n, hmul, hfr, ?_, ?_, ?_, rfl⟩⟩
        · simp only; omega
        · rw [numSharesDown_ok]
          have hTpos := h.pool.T_pos
          refine ⟨by simp only; omega, ?_, hn.symm, by omega⟩
          have := mul_lt_256 (a := w.pool.totalStakeShares) (b := fee) (by omega) (by omega)
          simp only; omega
        · intro _
          have hol := h.pool.acc_le w.pool.ownerId
          exact ⟨Nat.lt_of_le_of_lt (Nat.add_le_add_right hol n) (by omega), by simp only; omega⟩
      · exact ⟨_, rfl⟩
    obtain ⟨s1, hs1⟩ := key
    exact ⟨_, true, internalPing_ok.mpr (.inr ⟨he, rfl, by simp only [mkEnv]; omega,
      by simp only [mkEnv]; omega, by simp only [mkEnv]; omega, s1, hs1, rfl⟩)⟩

/-- The state after the reward distribution still fits. -/
theorem ping_fits {cfg : Cfg} {s0 : Nat} {w : World} (h : WInv cfg s0 w) (hb : Bounded w)
    {who : AccountId} {att : Nat} {res : List Bool} {s1 : Pool} {b : Bool}
    (hp : internalPing (mkEnv cfg w who att res) w.pool = .ok (s1, b)) :
    PingFacts s0 w.pool s1 ∧ Fits s1 ∧ (s1.paused = true ∨ cfg.validPublicKey s1.stakePublicKey = true) := by
  have hf := ping_facts h.pool hp
  have hs := pingRel_snapshot (.inr ⟨b, hp⟩) (by simp only [mkEnv]; have := h.cover; omega)
  have hfit := fits_world h hb
  simp only [mkEnv] at hs
  have h1 := hf.balance; have h2 := hf.unstakedSum; have h3 := hfit.claims
  have h4 := hb.balance
  refine ⟨hf, ⟨by omega, by omega⟩, ?_⟩
  rw [hf.paused, hf.key]; exact h.key

theorem restake_total {e : Env} {s : Pool}
    (hk : s.paused = true ∨ e.validPublicKey s.stakePublicKey = true) :
    ∃ effs, internalRestake e s = .ok effs := by
  cases hp : s.paused
  · refine ⟨_, internalRestake_ok.mpr (.inr ⟨hp, ?_, rfl⟩)⟩
    rcases hk with h | h
    · rw [hp] at h; cases h
    · exact h
  · exact ⟨_, internalRestake_ok.mpr (.inl ⟨hp, rfl⟩)⟩

theorem restakeIf_total {e : Env} {s : Pool} (b : Bool)
    (hk : s.paused = true ∨ e.validPublicKey s.stakePublicKey = true) :
    ∃ effs, restakeIf e s b = .ok effs := by
  obtain ⟨effs, h⟩ := restake_total hk
  cases b
  · exact ⟨[], restakeIf_ok.mpr (.inl ⟨rfl, rfl⟩)⟩
  · exact ⟨effs, restakeIf_ok.mpr (.inr ⟨rfl, h⟩)⟩

theorem deposit_total {s : Pool} {e : Env} (hf : Fits s) (hatt : e.attachedDeposit < 2 ^ 120) :
    ∃ s' x, internalDeposit e s = .ok (s', x) := by
  have := hf.last; have := hf.U e.predecessor
  have e128 : (two128 : Nat) = 2 ^ 128 := rfl
  exact ⟨_, _, internalDeposit_ok.mpr ⟨by omega, by omega, rfl, rfl⟩⟩

/-- A stake of `x` works iff it buys at least one share and the charge is covered. -/
theorem stake_total {s0 : Nat} {s : Pool} {e : Env} {x : Nat} (hi : PoolInv s0 s) (hf : Fits s)
    (hx : x ≤ (getAcc s e.predecessor).unstaked)
    (hprice : s.totalStakedBalance ≤ s.totalStakeShares * x) :
    ∃ s', internalStake e s x = .ok s' := by
  have e128 : (two128 : Nat) = 2 ^ 128 := rfl
  have hT := hf.T; have hST := hi.price; have hS := hi.S_pos; have hTp := hi.T_pos
  have hU := hf.U e.predecessor
  have hx0 : 0 < x := by
    rcases Nat.eq_zero_or_pos x with h | h
    · subst h; omega
    · exact h
  generalize hn : s.totalStakeShares * x / s.totalStakedBalance = n
  have hn0 : 0 < n := by rw [← hn]; exact Nat.div_pos hprice hTp
  have hnx : n ≤ x := by rw [← hn]; exact mul_div_le' hST
  have hcx : s.totalStakedBalance * n / s.totalStakeShares ≤ x := by
    rw [← hn]; exact Arith.charge_le
  have hsh := hi.acc_le e.predecessor
  have hup := Arith.up_le_succ (T := s.totalStakedBalance) (n := n) hS
  have hm1 := mul_lt_256 (a := s.totalStakeShares) (b := x) (by omega) (by omega)
  have hm2 := mul_lt_256 (a := s.totalStakedBalance) (b := n) (by omega) (by omega)
  refine ⟨_, internalStake_ok.mpr ⟨n, _, _, hx0, numSharesDown_ok.mpr ⟨hTp, by omega, hn.symm,
    by omega⟩, hn0, stakedAmountDown_ok.mpr ⟨hS, by omega, rfl, by omega⟩, ?_, by omega, by omega,
    stakedAmountUp_ok.mpr ⟨hS, by omega, rfl, by omega⟩, by omega, by omega, rfl⟩⟩
  apply Nat.div_pos _ hS
  calc s.totalStakeShares ≤ s.totalStakedBalance := hST
    _ = s.totalStakedBalance * 1 := by omega
    _ ≤ s.totalStakedBalance * n := Nat.mul_le_mul_left _ hn0

/-- An unstake of `x` works for every positive `x` up to the reported staked balance. -/
theorem unstake_total {s0 : Nat} {s : Pool} {e : Env} {x : Nat} (hi : PoolInv s0 s) (hf : Fits s)
    (he : e.epochHeight < 2 ^ 63 + 2 ^ 62) (hx0 : 0 < x) (hx : x ≤ stakedOf s e.predecessor) :
    ∃ s', innerUnstake e s x = .ok s' := by
  have e128 : (two128 : Nat) = 2 ^ 128 := rfl
  have e64 : (two64 : Nat) = 2 ^ 64 := rfl
  have hT := hf.T; have hST := hi.price; have hS := hi.S_pos; have hTp := hi.T_pos
  have hU := hf.U e.predecessor
  have hsh := hi.acc_le e.predecessor
  generalize hn : (s.totalStakeShares * x + (s.totalStakedBalance - 1)) / s.totalStakedBalance = n
  have hnle : n ≤ (getAcc s e.predecessor).stakeShares := by
    rw [← hn]; exact Arith.up_shares_le hTp hx
  have hn0 : 0 < n := by rw [← hn]; exact Arith.up_pos hS hx0 hTp
  have hxT : x ≤ s.totalStakedBalance := Nat.le_trans hx (Arith.down_le_total hsh)
  have hm1 := mul_lt_256 (a := s.totalStakeShares) (b := x) (by omega) (by omega)
  have hm2 := mul_lt_256 (a := s.totalStakedBalance) (b := n) (by omega) (by omega)
  have hup := Arith.up_le_succ (T := s.totalStakedBalance) (n := n) hS
  have hdn : s.totalStakedBalance * n / s.totalStakeShares ≤ s.totalStakedBalance :=
    Arith.down_le_total (by omega)
  have hrcv : x ≤ (s.totalStakedBalance * n + (s.totalStakeShares - 1)) / s.totalStakeShares := by
    rw [← hn]; exact Arith.receive_ge hTp hS
  refine ⟨_, innerUnstake_ok.mpr ⟨n, _, _, hx0, hTp, numSharesUp_ok.mpr ⟨hTp, by omega, hn.symm,
    by omega⟩, hn0, hnle, stakedAmountUp_ok.mpr ⟨hS, by omega, rfl, by omega⟩, by omega, by omega,
    ?_, stakedAmountDown_ok.mpr ⟨hS, by omega, rfl, by omega⟩, hdn, by omega, rfl⟩⟩
  unfold numEpochsToUnlock; omega

/-- The staked balance view never traps. -/
theorem stakedAmountDown_total {s0 : Nat} {s : Pool} (hi : PoolInv s0 s) (a : AccountId) :
    stakedAmountDown s (getAcc s a).stakeShares = .ok (stakedOf s a) := by
  have hT := hi.lt; have hST := hi.price; have hS := hi.S_pos
  have hsh := hi.acc_le a
  refine stakedAmountDown_ok.mpr ⟨hS, ?_, rfl, Nat.lt_of_le_of_lt (Arith.down_le_total hsh) hT⟩
  have h1 : s.totalStakedBalance * (getAcc s a).stakeShares < two128 * two128 :=
    Nat.mul_lt_mul_of_lt_of_le hT (by omega) (by unfold two128; norm_num)
  have h2 : two128 * two128 = two256 := by unfold two128 two256; norm_num
  omega

theorem getAccount_total {s0 : Nat} {s : Pool} (hi : PoolInv s0 s) (ep : Nat) (a : AccountId) :
    getAccount ep s a = .ok ⟨a, (getAcc s a).unstaked, stakedOf s a,
      decide ((getAcc s a).unstakedAvailableEpoch ≤ ep)⟩ := by
  simp only [getAccount, bind_ok, pure_ok]
  exact ⟨_, stakedAmountDown_total hi a, rfl⟩

theorem getStaked_total {s0 : Nat} {s : Pool} (hi : PoolInv s0 s) (ep : Nat) (a : AccountId) :
    getAccountStakedBalance ep s a = .ok (stakedOf s a) := by
  simp only [getAccountStakedBalance, bind_ok, pure_ok]
  exact ⟨_, getAccount_total hi ep a, rfl⟩

theorem getUnstaked_total {s0 : Nat} {s : Pool} (hi : PoolInv s0 s) (ep : Nat) (a : AccountId) :
    getAccountUnstakedBalance ep s a = .ok (getAcc s a).unstaked := by
  simp only [getAccountUnstakedBalance, bind_ok, pure_ok]
  exact ⟨_, getAccount_total hi ep a, rfl⟩

theorem isAvailable_total {s0 : Nat} {s : Pool} (hi : PoolInv s0 s) (ep : Nat) (a : AccountId) :
    isAccountUnstakedBalanceAvailable ep s a =
      .ok (decide ((getAcc s a).unstakedAvailableEpoch ≤ ep)) := by
  simp only [isAccountUnstakedBalanceAvailable, bind_ok, pure_ok]
  exact ⟨_, getAccount_total hi ep a, rfl⟩

end Verif.StakingPool
