import Verif.StakingPool.Cases

/-! # Invariants of the staking pool and their preservation by the elementary operations -/

namespace Verif.StakingPool

open Verif

/-- Invariant of the contract state. `s0` is the number of shares created at initialization. -/
structure PoolInv (s0 : Nat) (s : Pool) : Prop where
  pos : 0 < s0
  shares : s.totalStakeShares = s0 + sumShares s
  price : s.totalStakeShares ≤ s.totalStakedBalance
  lt : s.totalStakedBalance < two128
  fee : s.rewardFee.Valid
  nonempty : ∀ a acc, s.accounts.get a = some acc → 0 < acc.unstaked ∨ 0 < acc.stakeShares

theorem PoolInv.S_pos {s0 : Nat} {s : Pool} (h : PoolInv s0 s) : 0 < s.totalStakeShares := by
  have := h.pos; have := h.shares; omega

theorem PoolInv.T_pos {s0 : Nat} {s : Pool} (h : PoolInv s0 s) : 0 < s.totalStakedBalance := by
  have := h.S_pos; have := h.price; omega

theorem PoolInv.acc_le {s0 : Nat} {s : Pool} (h : PoolInv s0 s) (a : AccountId) :
    (getAcc s a).stakeShares ≤ s.totalStakeShares := by
  have := shares_le_sum s a; have := h.shares; omega

/-- `s'` has at least the share price of `s`. -/
def PriceLe (s s' : Pool) : Prop :=
  s.totalStakedBalance * s'.totalStakeShares ≤ s'.totalStakedBalance * s.totalStakeShares

theorem PriceLe.refl (s : Pool) : PriceLe s s := Nat.le_refl _

theorem PriceLe.trans {s s' s'' : Pool} (h : 0 < s'.totalStakeShares) (h1 : PriceLe s s')
    (h2 : PriceLe s' s'') : PriceLe s s'' := Arith.price_trans h h1 h2

theorem nonempty_saveAcc {s : Pool} {a : AccountId} {acc : Account}
    (h : ∀ a acc, s.accounts.get a = some acc → 0 < acc.unstaked ∨ 0 < acc.stakeShares) :
    ∀ b acc', (saveAcc s a acc).accounts.get b = some acc' →
      0 < acc'.unstaked ∨ 0 < acc'.stakeShares := by
  intro b acc' hb
  unfold saveAcc saveMap at hb
  simp only at hb
  split at hb
  · rename_i hc
    simp only [UMap.get_insert] at hb
    split at hb
    · simp at hb; subst hb; exact hc
    · exact h b acc' hb
  · simp only [UMap.get_remove] at hb
    split at hb
    · simp at hb
    · exact h b acc' hb

/-- getAcc depends on the accounts only. -/
theorem getAcc_congr {s s' : Pool} (h : s.accounts = s'.accounts) (a : AccountId) :
    getAcc s a = getAcc s' a := by unfold getAcc; rw [h]

theorem sumShares_congr {s s' : Pool} (h : s.accounts = s'.accounts) :
    sumShares s = sumShares s' := by unfold sumShares; rw [h]

theorem sumUnstaked_congr {s s' : Pool} (h : s.accounts = s'.accounts) :
    sumUnstaked s = sumUnstaked s' := by unfold sumUnstaked; rw [h]

/-! ## Reward distribution -/

/-- What a reward distribution does. -/
structure PingFacts (s0 : Nat) (s s1 : Pool) : Prop where
  inv : PoolInv s0 s1
  price : PriceLe s s1
  balance : s1.totalStakedBalance + s.lastTotalBalance = s.totalStakedBalance + s1.lastTotalBalance
  totalMono : s.lastTotalBalance ≤ s1.lastTotalBalance
  unstakedSum : sumUnstaked s1 = sumUnstaked s
  unstaked : ∀ a, (getAcc s1 a).unstaked = (getAcc s a).unstaked
  epochs : ∀ a, (getAcc s1 a).unstakedAvailableEpoch = (getAcc s a).unstakedAvailableEpoch ∨
    ((getAcc s a).unstaked = 0 ∧ (getAcc s a).stakeShares = 0)
  others : ∀ a, a ≠ s.ownerId → getAcc s1 a = getAcc s a
  shares : ∀ a, (getAcc s a).stakeShares ≤ (getAcc s1 a).stakeShares
  owner : s1.ownerId = s.ownerId
  key : s1.stakePublicKey = s.stakePublicKey
  feeEq : s1.rewardFee = s.rewardFee
  paused : s1.paused = s.paused

theorem PingFacts.rfl' {s0 : Nat} {s : Pool} (h : PoolInv s0 s) : PingFacts s0 s s :=
  ⟨h, PriceLe.refl s, rfl, Nat.le_refl _, rfl, fun _ => rfl, fun _ => .inl rfl, fun _ _ => rfl,
   fun _ => Nat.le_refl _, rfl, rfl, rfl, rfl⟩

theorem distributed_T (s : Pool) {fee r : Nat} (n : Nat) (h : fee ≤ r) :
    (distributed s fee n r).totalStakedBalance = s.totalStakedBalance + r := by
  unfold distributed; simp only; omega

theorem distributed_S (s : Pool) (fee n r : Nat) :
    (distributed s fee n r).totalStakeShares = s.totalStakeShares + n := rfl

theorem distributed_accounts_pos {s : Pool} {fee n r : Nat} (h : 0 < n) :
    (distributed s fee n r).accounts =
      (saveAcc s s.ownerId
        { getAcc s s.ownerId with stakeShares := (getAcc s s.ownerId).stakeShares + n }).accounts := by
  simp [distributed, h, saveAcc]

theorem distributed_getAcc (s : Pool) (fee n r : Nat) (a : AccountId) :
    getAcc (distributed s fee n r) a =
      if a = s.ownerId ∧ 0 < n then
        { getAcc s a with stakeShares := (getAcc s a).stakeShares + n }
      else getAcc s a := by
  by_cases h : 0 < n
  · rw [getAcc_congr (distributed_accounts_pos h), getAcc_saveAcc]
    by_cases ha : a = s.ownerId
    · subst ha
      simp only [h, if_true, and_self]
      unfold norm
      rw [if_pos]
      right; simp only; omega
    · have ha' : ¬ s.ownerId = a := fun h => ha h.symm
      simp [ha, ha']
  · have : n = 0 := by omega
    subst this
    simp [getAcc, distributed]

theorem distributed_sumShares (s : Pool) (fee n r : Nat) :
    sumShares (distributed s fee n r) = sumShares s + n := by
  by_cases h : 0 < n
  · rw [sumShares_congr (distributed_accounts_pos h)]
    have := sumShares_saveAcc s s.ownerId ⟨(getAcc s s.ownerId).unstaked,
      (getAcc s s.ownerId).stakeShares + n, (getAcc s s.ownerId).unstakedAvailableEpoch⟩
    simp only at this ⊢
    omega
  · have : n = 0 := by omega
    subst this
    simp [sumShares, distributed]

theorem distributed_sumUnstaked (s : Pool) (fee n r : Nat) :
    sumUnstaked (distributed s fee n r) = sumUnstaked s := by
  by_cases h : 0 < n
  · rw [sumUnstaked_congr (distributed_accounts_pos h)]
    have := sumUnstaked_saveAcc s s.ownerId ⟨(getAcc s s.ownerId).unstaked,
      (getAcc s s.ownerId).stakeShares + n, (getAcc s s.ownerId).unstakedAvailableEpoch⟩
    simp only at this ⊢
    omega
  · have : n = 0 := by omega
    subst this
    simp [sumUnstaked, distributed]

theorem distributed_nonempty (s : Pool) (fee n r : Nat)
    (h : ∀ a acc, s.accounts.get a = some acc → 0 < acc.unstaked ∨ 0 < acc.stakeShares) :
    ∀ a acc, (distributed s fee n r).accounts.get a = some acc →
      0 < acc.unstaked ∨ 0 < acc.stakeShares := by
  by_cases hn : 0 < n
  · rw [distributed_accounts_pos hn]
    intro a acc
    exact nonempty_saveAcc h a acc
  · have : n = 0 := by omega
    subst this
    simpa [distributed] using h

theorem distributed_rest (s : Pool) (fee n r : Nat) :
    (distributed s fee n r).stakePublicKey = s.stakePublicKey ∧
    (distributed s fee n r).rewardFee = s.rewardFee ∧
    (distributed s fee n r).paused = s.paused ∧
    (distributed s fee n r).lastTotalBalance = s.lastTotalBalance ∧
    (distributed s fee n r).lastEpochHeight = s.lastEpochHeight := by
  exact ⟨rfl, rfl, rfl, rfl, rfl⟩

/-- Facts about one successful distribution of reward `r`. -/
theorem distribute_facts {s0 r : Nat} {s s' : Pool} (hi : PoolInv s0 s)
    (h : distribute s r = .ok s') :
    PoolInv s0 s' ∧ PriceLe s s' ∧ s'.totalStakedBalance = s.totalStakedBalance + r := by
  rw [distribute_ok] at h
  obtain ⟨fee, n, hm, hle, hlt, hn, hb, rfl⟩ := h
  rw [numSharesDown_ok] at hn
  obtain ⟨hT, _, hn, _⟩ := hn
  simp only at hT hn
  have hprice : PriceLe s (distributed s fee n r) := by
    unfold PriceLe
    rw [distributed_T s n hle, distributed_S]
    have h1 : n * (s.totalStakedBalance + (r - fee)) ≤ s.totalStakeShares * fee := by
      rw [hn]; exact Nat.div_mul_le_self _ _
    have h2 := Arith.mint_price h1
    have h3 : s.totalStakedBalance + (r - fee) + fee = s.totalStakedBalance + r := by omega
    rw [h3] at h2
    exact le_trans (Nat.mul_le_mul_right _ (Nat.le_add_right _ _)) h2
  refine ⟨⟨hi.pos, ?_, ?_, ?_, ?_, distributed_nonempty s fee n r hi.nonempty⟩, hprice,
    distributed_T s n hle⟩
  · rw [distributed_S, distributed_sumShares, hi.shares]; omega
  · exact Arith.price_ge_one hi.S_pos hi.price hprice
  · rw [distributed_T s n hle]; omega
  · rw [(distributed_rest s fee n r).2.1]; exact hi.fee

theorem PoolInv.congr {s0 : Nat} {s s' : Pool} (h : PoolInv s0 s)
    (hS : s'.totalStakeShares = s.totalStakeShares)
    (hT : s'.totalStakedBalance = s.totalStakedBalance)
    (hf : s'.rewardFee = s.rewardFee) (ha : s'.accounts = s.accounts) : PoolInv s0 s' := by
  refine ⟨h.pos, ?_, ?_, ?_, ?_, ?_⟩
  · rw [hS, h.shares, sumShares_congr ha]
  · rw [hS, hT]; exact h.price
  · rw [hT]; exact h.lt
  · rw [hf]; exact h.fee
  · rw [ha]; exact h.nonempty

theorem ping_facts {s0 : Nat} {e : Env} {s s1 : Pool} {b : Bool} (hi : PoolInv s0 s)
    (h : internalPing e s = .ok (s1, b)) : PingFacts s0 s s1 := by
  rw [internalPing_ok] at h
  rcases h with ⟨_, rfl, _⟩ | ⟨_, _, _, _, hle, s2, h, rfl⟩
  · exact PingFacts.rfl' hi
  · have hi' : PoolInv s0 { s with lastEpochHeight := e.epochHeight } := hi.congr rfl rfl rfl rfl
    unfold distributeIf at h
    split at h
    · obtain ⟨h1, h2, h3⟩ := distribute_facts hi' h
      rw [distribute_ok] at h
      obtain ⟨fee, n, hm, hfle, hlt, hn, hb, rfl⟩ := h
      have hrest := distributed_rest { s with lastEpochHeight := e.epochHeight } fee n
        (e.accountLockedBalance + e.accountBalance - e.attachedDeposit - s.lastTotalBalance)
      have hacc := distributed_getAcc { s with lastEpochHeight := e.epochHeight } fee n
        (e.accountLockedBalance + e.accountBalance - e.attachedDeposit - s.lastTotalBalance)
      refine ⟨h1.congr rfl rfl rfl rfl, h2, ?_, ?_, ?_, ?_, ?_, ?_, ?_, ?_, ?_, ?_, ?_⟩
      · simp only at h3 ⊢; omega
      · exact hle
      · have := distributed_sumUnstaked { s with lastEpochHeight := e.epochHeight } fee n
          (e.accountLockedBalance + e.accountBalance - e.attachedDeposit - s.lastTotalBalance)
        exact this
      · intro a
        exact (congrArg Account.unstaked (hacc a)).trans (by split <;> rfl)
      · intro a
        exact .inl ((congrArg Account.unstakedAvailableEpoch (hacc a)).trans (by split <;> rfl))
      · intro a ha
        exact (hacc a).trans (if_neg (fun h => ha h.1))
      · intro a
        refine Nat.le_trans ?_ (congrArg Account.stakeShares (hacc a)).ge
        split
        · exact Nat.le_add_right _ _
        · exact Nat.le_refl _
      · rfl
      · exact hrest.1
      · exact hrest.2.1
      · exact hrest.2.2.1
    · rw [pure_ok] at h
      subst h
      have hz : e.accountLockedBalance + e.accountBalance - e.attachedDeposit
        = s.lastTotalBalance := by omega
      refine ⟨hi.congr rfl rfl rfl rfl, PriceLe.refl s, ?_, hle, rfl, fun _ => rfl,
        fun _ => .inl rfl, fun _ _ => rfl, fun _ => Nat.le_refl _, rfl, rfl, rfl, rfl⟩
      simp only; omega

theorem pingRel_facts {s0 : Nat} {e : Env} {s s1 : Pool} (hi : PoolInv s0 s)
    (h : PingRel e s s1) : PingFacts s0 s s1 := by
  rcases h with rfl | ⟨b, h⟩
  · exact PingFacts.rfl' hi
  · exact ping_facts hi h

/-! ## Elementary operations of the caller -/

/-- Common facts of deposit, withdraw, stake and unstake by `who`. -/
structure OpFacts (s0 : Nat) (who : AccountId) (s s' : Pool) : Prop where
  inv : PoolInv s0 s'
  price : PriceLe s s'
  others : ∀ a, a ≠ who → getAcc s' a = getAcc s a
  owner : s'.ownerId = s.ownerId
  key : s'.stakePublicKey = s.stakePublicKey
  feeEq : s'.rewardFee = s.rewardFee
  paused : s'.paused = s.paused
  lastEpoch : s'.lastEpochHeight = s.lastEpochHeight

theorem saveAcc_others {s : Pool} {who a : AccountId} {acc : Account} (h : a ≠ who) :
    getAcc (saveAcc s who acc) a = getAcc s a := by
  rw [getAcc_saveAcc, if_neg (fun e => h e.symm)]

theorem deposit_facts {s0 x : Nat} {e : Env} {s s' : Pool} (hi : PoolInv s0 s)
    (h : internalDeposit e s = .ok (s', x)) :
    OpFacts s0 e.predecessor s s' ∧ x = e.attachedDeposit ∧
    s'.totalStakedBalance = s.totalStakedBalance ∧ s'.totalStakeShares = s.totalStakeShares ∧
    s'.lastTotalBalance = s.lastTotalBalance + e.attachedDeposit ∧
    sumUnstaked s' = sumUnstaked s + e.attachedDeposit ∧
    getAcc s' e.predecessor = norm ⟨(getAcc s e.predecessor).unstaked + e.attachedDeposit,
      (getAcc s e.predecessor).stakeShares, (getAcc s e.predecessor).unstakedAvailableEpoch⟩ := by
  rw [internalDeposit_ok] at h
  obtain ⟨h1, h2, rfl, rfl⟩ := h
  have hsum := sumShares_saveAcc s e.predecessor
    ⟨(getAcc s e.predecessor).unstaked + e.attachedDeposit,
      (getAcc s e.predecessor).stakeShares, (getAcc s e.predecessor).unstakedAvailableEpoch⟩
  have hsumU := sumUnstaked_saveAcc s e.predecessor
    ⟨(getAcc s e.predecessor).unstaked + e.attachedDeposit,
      (getAcc s e.predecessor).stakeShares, (getAcc s e.predecessor).unstakedAvailableEpoch⟩
  simp only at hsum hsumU
  refine ⟨⟨⟨hi.pos, ?_, hi.price, hi.lt, hi.fee, nonempty_saveAcc hi.nonempty⟩, PriceLe.refl s, ?_,
    rfl, rfl, rfl, rfl, rfl⟩, rfl, rfl, rfl, rfl, ?_, ?_⟩
  · have := hi.shares
    refine this.trans (congrArg (s0 + ·) ?_)
    change sumShares s = sumShares (saveAcc s e.predecessor _)
    simp only
    omega
  · intro a ha; exact saveAcc_others ha
  · change sumUnstaked (saveAcc s e.predecessor _) = _
    simp only
    omega
  · refine (getAcc_saveAcc s e.predecessor e.predecessor _).trans ?_
    rw [if_pos rfl]

theorem withdraw_facts {s0 x : Nat} {e : Env} {s s' : Pool} {effs : List Eff} (hi : PoolInv s0 s)
    (h : internalWithdraw e s x = .ok (s', effs)) :
    OpFacts s0 e.predecessor s s' ∧ effs = [.transfer e.predecessor x] ∧
    s'.totalStakedBalance = s.totalStakedBalance ∧ s'.totalStakeShares = s.totalStakeShares ∧
    s'.lastTotalBalance + x = s.lastTotalBalance ∧
    sumUnstaked s' + x = sumUnstaked s ∧ 0 < x ∧ x ≤ (getAcc s e.predecessor).unstaked ∧
    x ≤ e.accountBalance ∧
    (getAcc s e.predecessor).unstakedAvailableEpoch ≤ e.epochHeight ∧
    getAcc s' e.predecessor = norm ⟨(getAcc s e.predecessor).unstaked - x,
      (getAcc s e.predecessor).stakeShares, (getAcc s e.predecessor).unstakedAvailableEpoch⟩ := by
  rw [internalWithdraw_ok] at h
  obtain ⟨h1, h2, h3, h4, h5, rfl, rfl⟩ := h
  have hsum := sumShares_saveAcc s e.predecessor
    ⟨(getAcc s e.predecessor).unstaked - x,
      (getAcc s e.predecessor).stakeShares, (getAcc s e.predecessor).unstakedAvailableEpoch⟩
  have hsumU := sumUnstaked_saveAcc s e.predecessor
    ⟨(getAcc s e.predecessor).unstaked - x,
      (getAcc s e.predecessor).stakeShares, (getAcc s e.predecessor).unstakedAvailableEpoch⟩
  have hle := unstaked_le_sum s e.predecessor
  simp only at hsum hsumU
  refine ⟨⟨⟨hi.pos, ?_, hi.price, hi.lt, hi.fee, nonempty_saveAcc hi.nonempty⟩, PriceLe.refl s, ?_,
    rfl, rfl, rfl, rfl, rfl⟩, rfl, rfl, rfl, ?_, ?_, h1, h2, h4, h3, ?_⟩
  · have := hi.shares
    refine this.trans (congrArg (s0 + ·) ?_)
    change sumShares s = sumShares (saveAcc s e.predecessor _)
    simp only
    omega
  · intro a ha; exact saveAcc_others ha
  · simp only; omega
  · change sumUnstaked (saveAcc s e.predecessor _) + _ = _
    simp only
    omega
  · refine (getAcc_saveAcc s e.predecessor e.predecessor _).trans ?_
    rw [if_pos rfl]

/-- Facts of a successful stake: `n` shares for the charge `c`, the totals grow by `up` and `n`. -/
theorem stake_facts {s0 x : Nat} {e : Env} {s s' : Pool} (hi : PoolInv s0 s)
    (h : internalStake e s x = .ok s') :
    OpFacts s0 e.predecessor s s' ∧ s'.lastTotalBalance = s.lastTotalBalance ∧
    ∃ n c up,
      0 < x ∧ 0 < n ∧ 0 < c ∧
      n = s.totalStakeShares * x / s.totalStakedBalance ∧
      c = s.totalStakedBalance * n / s.totalStakeShares ∧
      up = (s.totalStakedBalance * n + (s.totalStakeShares - 1)) / s.totalStakeShares ∧
      c ≤ (getAcc s e.predecessor).unstaked ∧
      s'.totalStakedBalance = s.totalStakedBalance + up ∧
      s'.totalStakeShares = s.totalStakeShares + n ∧
      sumUnstaked s' + c = sumUnstaked s ∧
      getAcc s' e.predecessor = ⟨(getAcc s e.predecessor).unstaked - c,
        (getAcc s e.predecessor).stakeShares + n,
        (getAcc s e.predecessor).unstakedAvailableEpoch⟩ := by
  rw [internalStake_ok] at h
  obtain ⟨n, c, up, h1, h2, h3, h4, h5, h6, h7, h8, h9, h10, rfl⟩ := h
  rw [numSharesDown_ok] at h2
  rw [stakedAmountDown_ok] at h4
  rw [stakedAmountUp_ok] at h8
  obtain ⟨_, _, hn, _⟩ := h2
  obtain ⟨_, _, hc, _⟩ := h4
  obtain ⟨_, _, hup, _⟩ := h8
  have hsum := sumShares_saveAcc s e.predecessor
    ⟨(getAcc s e.predecessor).unstaked - c,
      (getAcc s e.predecessor).stakeShares + n, (getAcc s e.predecessor).unstakedAvailableEpoch⟩
  have hsumU := sumUnstaked_saveAcc s e.predecessor
    ⟨(getAcc s e.predecessor).unstaked - c,
      (getAcc s e.predecessor).stakeShares + n, (getAcc s e.predecessor).unstakedAvailableEpoch⟩
  have hle := unstaked_le_sum s e.predecessor
  simp only at hsum hsumU
  have hprice : s.totalStakedBalance * (s.totalStakeShares + n)
      ≤ (s.totalStakedBalance + up) * s.totalStakeShares := by
    rw [hup]; exact Arith.stake_price hi.S_pos
  refine ⟨⟨⟨hi.pos, ?_, ?_, h9, hi.fee, nonempty_saveAcc hi.nonempty⟩, hprice, ?_,
    rfl, rfl, rfl, rfl, rfl⟩, rfl, n, c, up, h1, h3, h5, hn, hc, hup, h6, rfl, rfl, ?_, ?_⟩
  · have := hi.shares
    change s.totalStakeShares + n = s0 + sumShares (saveAcc s e.predecessor _)
    simp only
    omega
  · exact Arith.price_ge_one hi.S_pos hi.price hprice
  · intro a ha; exact saveAcc_others ha
  · change sumUnstaked (saveAcc s e.predecessor _) + _ = _
    simp only
    omega
  · refine (getAcc_saveAcc s e.predecessor e.predecessor _).trans ?_
    rw [if_pos rfl]
    unfold norm
    rw [if_pos]
    right; simp only; omega

/-- Facts of a successful unstake: `n` shares are burnt for `rcv`, the totals shrink by `dn`, `n`. -/
theorem unstake_facts {s0 x : Nat} {e : Env} {s s' : Pool} (hi : PoolInv s0 s)
    (h : innerUnstake e s x = .ok s') :
    OpFacts s0 e.predecessor s s' ∧ s'.lastTotalBalance = s.lastTotalBalance ∧
    ∃ n rcv dn,
      0 < x ∧ 0 < n ∧ 0 < rcv ∧
      n = (s.totalStakeShares * x + (s.totalStakedBalance - 1)) / s.totalStakedBalance ∧
      rcv = (s.totalStakedBalance * n + (s.totalStakeShares - 1)) / s.totalStakeShares ∧
      dn = s.totalStakedBalance * n / s.totalStakeShares ∧
      n ≤ (getAcc s e.predecessor).stakeShares ∧
      s'.totalStakedBalance + dn = s.totalStakedBalance ∧
      s'.totalStakeShares + n = s.totalStakeShares ∧
      sumUnstaked s' = sumUnstaked s + rcv ∧
      getAcc s' e.predecessor = ⟨(getAcc s e.predecessor).unstaked + rcv,
        (getAcc s e.predecessor).stakeShares - n, e.epochHeight + numEpochsToUnlock⟩ := by
  rw [innerUnstake_ok] at h
  obtain ⟨n, rcv, dn, h1, h2, h3, h4, h5, h6, h7, h8, h9, h10, h11, h12, rfl⟩ := h
  rw [numSharesUp_ok] at h3
  rw [stakedAmountUp_ok] at h6
  rw [stakedAmountDown_ok] at h10
  obtain ⟨_, _, hn, _⟩ := h3
  obtain ⟨_, _, hr, _⟩ := h6
  obtain ⟨_, _, hd, _⟩ := h10
  have hsum := sumShares_saveAcc s e.predecessor
    ⟨(getAcc s e.predecessor).unstaked + rcv,
      (getAcc s e.predecessor).stakeShares - n, e.epochHeight + numEpochsToUnlock⟩
  have hsumU := sumUnstaked_saveAcc s e.predecessor
    ⟨(getAcc s e.predecessor).unstaked + rcv,
      (getAcc s e.predecessor).stakeShares - n, e.epochHeight + numEpochsToUnlock⟩
  have hle := shares_le_sum s e.predecessor
  simp only at hsum hsumU
  have hprice : s.totalStakedBalance * (s.totalStakeShares - n)
      ≤ (s.totalStakedBalance - dn) * s.totalStakeShares := by
    rw [hd]; exact Arith.unstake_price _ _ _
  refine ⟨⟨⟨hi.pos, ?_, ?_, ?_, hi.fee, nonempty_saveAcc hi.nonempty⟩, hprice, ?_,
    rfl, rfl, rfl, rfl, rfl⟩, rfl, n, rcv, dn, h1, h4, h7, hn, hr, hd, h5, ?_, ?_, ?_, ?_⟩
  · have := hi.shares
    change s.totalStakeShares - n = s0 + sumShares (saveAcc s e.predecessor _)
    omega
  · exact Arith.price_ge_one hi.S_pos hi.price hprice
  · have := hi.lt
    change s.totalStakedBalance - dn < _
    omega
  · intro a ha; exact saveAcc_others ha
  · simp only; omega
  · simp only; omega
  · change sumUnstaked (saveAcc s e.predecessor _) = _
    omega
  · refine (getAcc_saveAcc s e.predecessor e.predecessor _).trans ?_
    rw [if_pos rfl]
    unfold norm
    rw [if_pos]
    left; simp only; omega

end Verif.StakingPool
