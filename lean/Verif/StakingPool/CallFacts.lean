import Verif.StakingPool.Invariant

/-! # Facts about one successful call, in terms of the state before and after -/

namespace Verif.StakingPool

open Verif

/-- Rounded-down value of the shares of `a`. -/
def stakedOf (s : Pool) (a : AccountId) : Nat :=
  s.totalStakedBalance * (getAcc s a).stakeShares / s.totalStakeShares

theorem stakedOf_mono {s0 : Nat} {s s' : Pool} {a : AccountId} (hi : PoolInv s0 s)
    (hi' : PoolInv s0 s') (hp : PriceLe s s')
    (h : (getAcc s a).stakeShares ≤ (getAcc s' a).stakeShares) : stakedOf s a ≤ stakedOf s' a := by
  unfold stakedOf
  refine Nat.le_trans (Arith.view_mono hi.S_pos hi'.S_pos hp) ?_
  exact Nat.div_le_div_right (Nat.mul_le_mul_left _ h)

/-- Extra facts about the balance snapshot kept by `internal_ping`. -/
theorem pingRel_snapshot {e : Env} {s s1 : Pool} (h : PingRel e s s1)
    (hb : s.lastTotalBalance + e.attachedDeposit ≤ e.accountLockedBalance + e.accountBalance) :
    s1.lastTotalBalance + e.attachedDeposit ≤ e.accountLockedBalance + e.accountBalance := by
  rcases h with rfl | ⟨b, h⟩
  · exact hb
  · rw [internalPing_ok] at h
    rcases h with ⟨_, rfl, _⟩ | ⟨_, _, _, h1, _, s2, _, rfl⟩
    · exact hb
    · simp only; omega

theorem pingRel_lastEpoch {e : Env} {s s1 : Pool} (h : PingRel e s s1) :
    s1.lastEpochHeight = s.lastEpochHeight ∨ s1.lastEpochHeight = e.epochHeight := by
  rcases h with rfl | ⟨b, h⟩
  · exact .inl rfl
  · rw [internalPing_ok] at h
    rcases h with ⟨_, rfl, _⟩ | ⟨_, _, _, h1, _, s2, h, rfl⟩
    · exact .inl rfl
    · right
      unfold distributeIf at h
      split at h
      · rw [distribute_ok] at h
        obtain ⟨fee, n, _, _, _, _, _, rfl⟩ := h
        rfl
      · rw [pure_ok] at h; subst h; rfl

theorem paidOut_noTransfer {effs : List Eff} (h : NoTransfer effs) : paidOut effs = 0 := by
  unfold paidOut
  induction effs with
  | nil => rfl
  | cons x t ih =>
    have ht : NoTransfer t := fun r y hm => h r y (List.mem_cons_of_mem _ hm)
    cases x with
    | transfer r y => exact absurd List.mem_cons_self (h r y)
    | stake _ _ _ => simpa using ih ht
    | voteCall _ _ => simpa using ih ht

theorem paidTo_noTransfer {effs : List Eff} (h : NoTransfer effs) (a : AccountId) :
    paidTo a effs = 0 := by
  unfold paidTo
  induction effs with
  | nil => rfl
  | cons x t ih =>
    have ht : NoTransfer t := fun r y hm => h r y (List.mem_cons_of_mem _ hm)
    cases x with
    | transfer r y => exact absurd List.mem_cons_self (h r y)
    | stake _ _ _ => simpa using ih ht
    | voteCall _ _ => simpa using ih ht

theorem paidOut_append (l1 l2 : List Eff) : paidOut (l1 ++ l2) = paidOut l1 + paidOut l2 := by
  simp [paidOut]

theorem paidTo_append (a : AccountId) (l1 l2 : List Eff) :
    paidTo a (l1 ++ l2) = paidTo a l1 + paidTo a l2 := by
  simp [paidTo]

/-- What every successful call guarantees. -/
structure CallFacts (s0 : Nat) (e : Env) (s : Pool) (c : Call) (s' : Pool) (effs : List Eff) :
    Prop where
  inv : PoolInv s0 s'
  price : PriceLe s s'
  owner : s'.ownerId = s.ownerId
  /-- bystanders -/
  others : ∀ a, a ≠ e.predecessor → a ≠ s.ownerId → getAcc s' a = getAcc s a
  ownerAcc : ∀ a, a ≠ e.predecessor → (getAcc s' a).unstaked = (getAcc s a).unstaked ∧
    (getAcc s a).stakeShares ≤ (getAcc s' a).stakeShares ∧
    (getAcc s' a).unstakedAvailableEpoch = (getAcc s a).unstakedAvailableEpoch
  /-- payments -/
  paidOthers : ∀ a, a ≠ e.predecessor → paidTo a effs = 0
  paidLe : paidOut effs ≤ e.accountBalance
  paid : paidOut effs = paidTo e.predecessor effs
  /-- liabilities grow at most as fast as the accounted balance, up to one per rounding -/
  solv : s'.totalStakedBalance + sumUnstaked s' + s.lastTotalBalance ≤
    s.totalStakedBalance + sumUnstaked s + s'.lastTotalBalance + (if c.isRounding then 1 else 0)
  solvLow : s.totalStakedBalance + sumUnstaked s + s'.lastTotalBalance ≤
    s'.totalStakedBalance + sumUnstaked s' + s.lastTotalBalance
  /-- the snapshot stays covered by the tokens on the account -/
  snapshot : s.lastTotalBalance + e.attachedDeposit ≤ e.accountLockedBalance + e.accountBalance →
    s'.lastTotalBalance + paidOut effs ≤ e.accountLockedBalance + e.accountBalance
  /-- the caller's position -/
  value : (getAcc s e.predecessor).unstaked + stakedOf s e.predecessor + e.attachedDeposit ≤
    (getAcc s' e.predecessor).unstaked + stakedOf s' e.predecessor + paidTo e.predecessor effs
  lastEpoch : s'.lastEpochHeight = s.lastEpochHeight ∨ s'.lastEpochHeight = e.epochHeight

theorem ping_epochs {e : Env} {s s1 : Pool} {b : Bool} (h : internalPing e s = .ok (s1, b))
    (a : AccountId) :
    (getAcc s1 a).unstakedAvailableEpoch = (getAcc s a).unstakedAvailableEpoch := by
  rw [internalPing_ok] at h
  rcases h with ⟨_, rfl, _⟩ | ⟨_, _, _, _, _, s2, hd, rfl⟩
  · rfl
  · unfold distributeIf at hd
    split at hd
    · rw [distribute_ok] at hd
      obtain ⟨fee, n, _, _, _, _, _, rfl⟩ := hd
      have hacc := distributed_getAcc { s with lastEpochHeight := e.epochHeight } fee n
        (e.accountLockedBalance + e.accountBalance - e.attachedDeposit - s.lastTotalBalance) a
      exact (congrArg Account.unstakedAvailableEpoch hacc).trans (by split <;> rfl)
    · rw [pure_ok] at hd; subst hd; rfl

theorem pingRel_epochs {e : Env} {s s1 : Pool} (h : PingRel e s s1) (a : AccountId) :
    (getAcc s1 a).unstakedAvailableEpoch = (getAcc s a).unstakedAvailableEpoch := by
  rcases h with rfl | ⟨b, h⟩
  · rfl
  · exact ping_epochs h a

theorem body_facts {s0 : Nat} {e : Env} {s s1 s' : Pool} {c : Call} {effs : List Eff}
    (hi : PoolInv s0 s) (hp : PingRel e s s1) (hb : Body e s1 c s' effs) :
    CallFacts s0 e s c s' effs := by
  have hpf := pingRel_facts hi hp
  have hsnap := pingRel_snapshot hp
  have hle := pingRel_lastEpoch hp
  have hacc1 := pingRel_epochs hp
  have hstk : ∀ a, stakedOf s a ≤ stakedOf s1 a := fun a =>
    stakedOf_mono hi hpf.inv hpf.price (hpf.shares a)
  -- common part for the operations of the caller
  have others_of : ∀ {s'' : Pool}, (∀ a, a ≠ e.predecessor → getAcc s'' a = getAcc s1 a) →
      (∀ a, a ≠ e.predecessor → a ≠ s.ownerId → getAcc s'' a = getAcc s a) ∧
      (∀ a, a ≠ e.predecessor → (getAcc s'' a).unstaked = (getAcc s a).unstaked ∧
        (getAcc s a).stakeShares ≤ (getAcc s'' a).stakeShares ∧
        (getAcc s'' a).unstakedAvailableEpoch = (getAcc s a).unstakedAvailableEpoch) := by
    intro s'' h
    refine ⟨fun a h1 h2 => (h a h1).trans (hpf.others a h2), fun a h1 => ?_⟩
    rw [h a h1]
    exact ⟨hpf.unstaked a, hpf.shares a, hacc1 a⟩
  have hpb := hpf.balance
  have hus := hpf.unstakedSum
  cases hb with
  | idle hr hd hn =>
    obtain ⟨ho1, ho2⟩ := others_of (s'' := s1) (fun _ _ => rfl)
    refine ⟨hpf.inv, hpf.price, hpf.owner, ho1, ho2, fun a _ => paidTo_noTransfer hn a, ?_, ?_,
      ?_, ?_, ?_, ?_, hle⟩
    · rw [paidOut_noTransfer hn]; exact Nat.zero_le _
    · rw [paidOut_noTransfer hn, paidTo_noTransfer hn]
    · simp only [hr]; simp only [Bool.false_eq_true, if_false]; omega
    · omega
    · intro h; rw [paidOut_noTransfer hn]; have := hsnap h; omega
    · rw [paidTo_noTransfer hn, hpf.unstaked, hd]
      have := hstk e.predecessor; omega
  | admin key fee paused hr hd hn ho hf =>
    obtain ⟨ho1, ho2⟩ := others_of
      (s'' := { s1 with stakePublicKey := key, rewardFee := fee, paused := paused })
      (fun _ _ => rfl)
    refine ⟨⟨hpf.inv.pos, hpf.inv.shares, hpf.inv.price, hpf.inv.lt, ?_, hpf.inv.nonempty⟩,
      hpf.price, hpf.owner, ho1, ho2, fun a _ => paidTo_noTransfer hn a, ?_, ?_,
      ?_, ?_, ?_, ?_, hle⟩
    · rcases hf with rfl | hf
      · exact hpf.inv.fee
      · exact hf
    · rw [paidOut_noTransfer hn]; exact Nat.zero_le _
    · rw [paidOut_noTransfer hn, paidTo_noTransfer hn]
    · have : sumUnstaked { s1 with stakePublicKey := key, rewardFee := fee, paused := paused }
        = sumUnstaked s1 := rfl
      simp only [hr, this]; simp only [Bool.false_eq_true, if_false]; omega
    · have : sumUnstaked { s1 with stakePublicKey := key, rewardFee := fee, paused := paused }
        = sumUnstaked s1 := rfl
      simp only [this]; omega
    · intro h; rw [paidOut_noTransfer hn]; have := hsnap h; simp only; omega
    · rw [paidTo_noTransfer hn, hd]
      have h1 := hstk e.predecessor
      have h2 := hpf.unstaked e.predecessor
      have h3 : getAcc { s1 with stakePublicKey := key, rewardFee := fee, paused := paused }
        e.predecessor = getAcc s1 e.predecessor := rfl
      have h4 : stakedOf { s1 with stakePublicKey := key, rewardFee := fee, paused := paused }
        e.predecessor = stakedOf s1 e.predecessor := rfl
      rw [h3, h4]; omega
  | deposit hd hn =>
    obtain ⟨of, _, hT, hS, hlt, hsu, hacc⟩ := deposit_facts hpf.inv hd
    obtain ⟨ho1, ho2⟩ := others_of of.others
    refine ⟨of.inv, hpf.price.trans hpf.inv.S_pos of.price, of.owner.trans hpf.owner, ho1, ho2,
      fun a _ => paidTo_noTransfer hn a, ?_, ?_, ?_, ?_, ?_, ?_, ?_⟩
    · rw [paidOut_noTransfer hn]; exact Nat.zero_le _
    · rw [paidOut_noTransfer hn, paidTo_noTransfer hn]
    · simp only [Call.isRounding, Bool.false_eq_true, if_false]; omega
    · omega
    · intro h; rw [paidOut_noTransfer hn]; have := hsnap h; omega
    · have h1 := hstk e.predecessor
      have h2 := hpf.unstaked e.predecessor
      have h3 : stakedOf s' e.predecessor = stakedOf s1 e.predecessor := by
        unfold stakedOf; rw [hT, hS, hacc, norm_shares]
      rw [paidTo_noTransfer hn, h3, hacc, norm_unstaked]; simp only; omega
    · rw [of.lastEpoch]; exact hle
  | @depositStake s2 _ x _ hd hs hn =>
    obtain ⟨of, hx, hT, hS, hlt, hsu, hacc⟩ := deposit_facts hpf.inv hd
    obtain ⟨sf, hlt2, n, ch, up, hx0, hn0, hc0, hnE, hcE, hupE, hcle, hT2, hS2, hsu2, hacc2⟩ :=
      stake_facts of.inv hs
    have hoth : ∀ a, a ≠ e.predecessor → getAcc s' a = getAcc s1 a := fun a ha =>
      (sf.others a ha).trans (of.others a ha)
    obtain ⟨ho1, ho2⟩ := others_of hoth
    refine ⟨sf.inv, hpf.price.trans hpf.inv.S_pos (of.price.trans of.inv.S_pos sf.price),
      sf.owner.trans (of.owner.trans hpf.owner), ho1, ho2,
      fun a _ => paidTo_noTransfer hn a, ?_, ?_, ?_, ?_, ?_, ?_, ?_⟩
    · rw [paidOut_noTransfer hn]; exact Nat.zero_le _
    · rw [paidOut_noTransfer hn, paidTo_noTransfer hn]
    · simp only [Call.isRounding, if_true]
      have := Arith.up_le_succ (T := s2.totalStakedBalance) (n := n) of.inv.S_pos
      omega
    · have := Arith.le_up (T := s2.totalStakedBalance) (S := s2.totalStakeShares) (n := n)
      omega
    · intro h; rw [paidOut_noTransfer hn]; have := hsnap h; omega
    · have h1 := hstk e.predecessor
      have h2 := hpf.unstaked e.predecessor
      have h3 : stakedOf s2 e.predecessor = stakedOf s1 e.predecessor := by
        unfold stakedOf; rw [hT, hS, hacc, norm_shares]
      have h4 : stakedOf s2 e.predecessor + ch ≤ stakedOf s' e.predecessor := by
        unfold stakedOf
        rw [hacc2, hcE]
        refine Nat.le_trans (Arith.down_add_le _ _ _ _) ?_
        exact Arith.view_mono of.inv.S_pos sf.inv.S_pos sf.price
      have h5 : (getAcc s2 e.predecessor).unstaked =
          (getAcc s1 e.predecessor).unstaked + e.attachedDeposit := by rw [hacc, norm_unstaked]
      rw [paidTo_noTransfer hn]
      have h6 : (getAcc s' e.predecessor).unstaked = (getAcc s2 e.predecessor).unstaked - ch := by
        rw [hacc2]
      omega
    · rw [sf.lastEpoch, of.lastEpoch]; exact hle
  | withdraw hcl hd hw hn =>
    rename_i x effs1 effs2
    obtain ⟨wf, he, hT, hS, hlt, hsu, hx0, hxle, hxb, hep, hacc⟩ := withdraw_facts hpf.inv hw
    obtain ⟨ho1, ho2⟩ := others_of wf.others
    subst he
    have hr : c.isRounding = false := by rcases hcl with rfl | ⟨rfl, _⟩ <;> rfl
    have hpo : paidOut ([Eff.transfer e.predecessor x] ++ effs2) = x := by
      rw [paidOut_append, paidOut_noTransfer hn]; simp [paidOut]
    have hpt : paidTo e.predecessor ([Eff.transfer e.predecessor x] ++ effs2) = x := by
      rw [paidTo_append, paidTo_noTransfer hn]; simp [paidTo]
    refine ⟨wf.inv, hpf.price.trans hpf.inv.S_pos wf.price, wf.owner.trans hpf.owner, ho1, ho2,
      ?_, ?_, ?_, ?_, ?_, ?_, ?_, ?_⟩
    · intro a ha
      rw [paidTo_append, paidTo_noTransfer hn]
      simp [paidTo, Ne.symm ha]
    · rw [hpo]; exact hxb
    · rw [hpo, hpt]
    · simp only [hr, Bool.false_eq_true, if_false]; omega
    · omega
    · intro h; have := hsnap h; rw [hpo]; omega
    · have h1 := hstk e.predecessor
      have h2 := hpf.unstaked e.predecessor
      have h3 : stakedOf s' e.predecessor = stakedOf s1 e.predecessor := by
        unfold stakedOf; rw [hT, hS, hacc, norm_shares]
      rw [hpt, h3, hacc, norm_unstaked]; simp only; omega
    · rw [wf.lastEpoch]; exact hle
  | stake hcl hd hs hn =>
    obtain ⟨sf, hlt2, n, ch, up, hx0, hn0, hc0, hnE, hcE, hupE, hcle, hT2, hS2, hsu2, hacc2⟩ :=
      stake_facts hpf.inv hs
    obtain ⟨ho1, ho2⟩ := others_of sf.others
    have hr : c.isRounding = true := by rcases hcl with rfl | ⟨rfl, _⟩ <;> rfl
    refine ⟨sf.inv, hpf.price.trans hpf.inv.S_pos sf.price,
      sf.owner.trans hpf.owner, ho1, ho2,
      fun a _ => paidTo_noTransfer hn a, ?_, ?_, ?_, ?_, ?_, ?_, ?_⟩
    · rw [paidOut_noTransfer hn]; exact Nat.zero_le _
    · rw [paidOut_noTransfer hn, paidTo_noTransfer hn]
    · simp only [hr, if_true]
      have := Arith.up_le_succ (T := s1.totalStakedBalance) (n := n) hpf.inv.S_pos
      omega
    · have := Arith.le_up (T := s1.totalStakedBalance) (S := s1.totalStakeShares) (n := n)
      omega
    · intro h; rw [paidOut_noTransfer hn]; have := hsnap h; omega
    · have h1 := hstk e.predecessor
      have h2 := hpf.unstaked e.predecessor
      have h4 : stakedOf s1 e.predecessor + ch ≤ stakedOf s' e.predecessor := by
        unfold stakedOf
        rw [hacc2, hcE]
        refine Nat.le_trans (Arith.down_add_le _ _ _ _) ?_
        exact Arith.view_mono hpf.inv.S_pos sf.inv.S_pos sf.price
      rw [paidTo_noTransfer hn]
      have h6 : (getAcc s' e.predecessor).unstaked = (getAcc s1 e.predecessor).unstaked - ch := by
        rw [hacc2]
      omega
    · rw [sf.lastEpoch]; exact hle
  | unstake hcl hd hu hn =>
    obtain ⟨uf, hlt2, n, rcv, dn, hx0, hn0, hr0, hnE, hrE, hdE, hnle, hT2, hS2, hsu2, hacc2⟩ :=
      unstake_facts hpf.inv hu
    obtain ⟨ho1, ho2⟩ := others_of uf.others
    have hr : c.isRounding = true := by rcases hcl with rfl | ⟨rfl, _⟩ <;> rfl
    refine ⟨uf.inv, hpf.price.trans hpf.inv.S_pos uf.price,
      uf.owner.trans hpf.owner, ho1, ho2,
      fun a _ => paidTo_noTransfer hn a, ?_, ?_, ?_, ?_, ?_, ?_, ?_⟩
    · rw [paidOut_noTransfer hn]; exact Nat.zero_le _
    · rw [paidOut_noTransfer hn, paidTo_noTransfer hn]
    · simp only [hr, if_true]
      have := Arith.up_le_succ (T := s1.totalStakedBalance) (n := n) hpf.inv.S_pos
      omega
    · have := Arith.le_up (T := s1.totalStakedBalance) (S := s1.totalStakeShares) (n := n)
      omega
    · intro h; rw [paidOut_noTransfer hn]; have := hsnap h; omega
    · have h1 := hstk e.predecessor
      have h2 := hpf.unstaked e.predecessor
      have h4 : stakedOf s1 e.predecessor ≤ stakedOf s' e.predecessor + rcv := by
        have h5 : stakedOf s1 e.predecessor ≤
            s1.totalStakedBalance * ((getAcc s1 e.predecessor).stakeShares - n)
              / s1.totalStakeShares + rcv := by
          have h6 := Arith.down_le_down_add_up (T := s1.totalStakedBalance)
            (a := (getAcc s1 e.predecessor).stakeShares - n) (b := n) hpf.inv.S_pos
          rw [Nat.sub_add_cancel hnle, ← hrE] at h6
          exact h6
        refine Nat.le_trans h5 (Nat.add_le_add_right ?_ _)
        unfold stakedOf
        rw [hacc2]
        exact Arith.view_mono hpf.inv.S_pos uf.inv.S_pos uf.price
      rw [paidTo_noTransfer hn]
      have h6 : (getAcc s' e.predecessor).unstaked = (getAcc s1 e.predecessor).unstaked + rcv := by
        rw [hacc2]
      omega
    · rw [uf.lastEpoch]; exact hle

theorem call_facts {s0 : Nat} {e : Env} {s s' : Pool} {c : Call} {effs : List Eff}
    (hi : PoolInv s0 s) (h : exec e s c = .ok (s', effs)) : CallFacts s0 e s c s' effs := by
  obtain ⟨s1, hp, hb⟩ := exec_cases h
  exact body_facts hi hp hb

end Verif.StakingPool
