import Verif.StakingPool.Profit

/-!
# Staking pool property C113: no profit without rewards
-/

namespace Verif.StakingPool

open Verif

theorem holders_eq {s0 : Nat} {s : Pool} (hi : PoolInv s0 s) (A : List AccountId) :
    holders s A = A.countP (fun a => decide (0 < stakedOf s a)) := by
  unfold holders
  congr 1
  funext a
  rw [decide_eq_decide]
  unfold stakedOf
  have hS := hi.S_pos
  constructor
  · intro h
    refine Nat.div_pos ?_ hS
    calc s.totalStakeShares ≤ s.totalStakedBalance := hi.price
      _ = s.totalStakedBalance * 1 := (Nat.mul_one _).symm
      _ ≤ _ := Nat.mul_le_mul_left _ h
  · intro h
    rcases Nat.eq_zero_or_pos (getAcc s a).stakeShares with h0 | h0
    · rw [h0] at h; simp at h
    · exact h0

/-- **C113 (no profit without rewards).** Take any group of accounts and any stretch of history. What the
group has at the end, that is the balances shown for its members plus what was paid to them, exceeds what
it had at the start plus what it deposited in between by at most the rewards distributed in between plus
one yocto for each stake or unstake accepted in between. (Each member with a staked balance may moreover
have had a fraction of a yocto that was not shown at the start.) No sequence of deposits, stakes,
unstakes and withdrawals, by the members and by anyone else, in any order, moves the stake of others to
the group. -/
theorem C113_no_profit_without_rewards {cfg : Cfg} {w : World} (h : Reachable cfg w)
    {A : List AccountId} (hA : A.Nodup) (evs : List Ev) {un st un' st' : AccountId → Nat}
    (hu : ∀ a ∈ A, getAccountUnstakedBalance w.epoch w.pool a = .ok (un a))
    (hs : ∀ a ∈ A, getAccountStakedBalance w.epoch w.pool a = .ok (st a))
    (hu' : ∀ a ∈ A, getAccountUnstakedBalance (run cfg w evs).epoch (run cfg w evs).pool a =
      .ok (un' a))
    (hs' : ∀ a ∈ A, getAccountStakedBalance (run cfg w evs).epoch (run cfg w evs).pool a =
      .ok (st' a)) :
    (A.map un').sum + (A.map st').sum + (A.map (run cfg w evs).withdrawn).sum +
        (A.map w.deposited).sum + w.roundings ≤
      (A.map un).sum + (A.map st).sum + (A.map w.withdrawn).sum +
        (A.map (run cfg w evs).deposited).sum + (run cfg w evs).roundings +
        ((distributions cfg w evs).map (·.reward)).sum +
        (A.countP (fun a => decide (0 < st a)) - 1) := by
  obtain ⟨s0, hi⟩ := reachable_inv h
  have hi' := run_inv hi evs
  have e1 : A.map un = A.map (fun a => (getAcc w.pool a).unstaked) :=
    List.map_congr_left fun a ha => by
      have := hu a ha; rw [getUnstaked_total hi.pool] at this; exact (Except.ok.inj this).symm
  have e2 : A.map st = A.map (stakedOf w.pool) :=
    List.map_congr_left fun a ha => by
      have := hs a ha; rw [getStaked_total hi.pool] at this; exact (Except.ok.inj this).symm
  have e3 : A.map un' = A.map (fun a => (getAcc (run cfg w evs).pool a).unstaked) :=
    List.map_congr_left fun a ha => by
      have := hu' a ha; rw [getUnstaked_total hi'.pool] at this; exact (Except.ok.inj this).symm
  have e4 : A.map st' = A.map (stakedOf (run cfg w evs).pool) :=
    List.map_congr_left fun a ha => by
      have := hs' a ha; rw [getStaked_total hi'.pool] at this; exact (Except.ok.inj this).symm
  have e5 : A.countP (fun a => decide (0 < st a)) = holders w.pool A := by
    rw [holders_eq hi.pool]
    refine List.countP_congr fun a ha => ?_
    have := hs a ha
    rw [getStaked_total hi.pool] at this
    rw [Except.ok.inj this]
  rw [e1, e2, e3, e4, e5]
  have h1 := gain_run hA hi evs
  have h2 := shown_le hi'.pool A
  have h3 := le_shown hi.pool A
  simp only [over] at h1 h2 h3
  rcases Nat.eq_zero_or_pos (holders w.pool A) with hk | hk
  · have h3 := h3.1 hk
    rw [hk]
    have h5 : ((((A.map (fun a => (getAcc (run cfg w evs).pool a).unstaked)).sum +
        (A.map (stakedOf (run cfg w evs).pool)).sum + (A.map (run cfg w evs).withdrawn).sum +
        (A.map w.deposited).sum + w.roundings : Nat)) : ℚ) ≤
        (((A.map (fun a => (getAcc w.pool a).unstaked)).sum + (A.map (stakedOf w.pool)).sum +
        (A.map w.withdrawn).sum + (A.map (run cfg w evs).deposited).sum +
        (run cfg w evs).roundings + ((distributions cfg w evs).map (·.reward)).sum : Nat)) := by
      push_cast at h1 h2 h3 ⊢
      linarith
    have h6 := Nat.cast_le.mp h5
    omega
  · have h3 := h3.2 hk
    have h5 : ((((A.map (fun a => (getAcc (run cfg w evs).pool a).unstaked)).sum +
        (A.map (stakedOf (run cfg w evs).pool)).sum + (A.map (run cfg w evs).withdrawn).sum +
        (A.map w.deposited).sum + w.roundings : Nat)) : ℚ) <
        (((A.map (fun a => (getAcc w.pool a).unstaked)).sum + (A.map (stakedOf w.pool)).sum +
        (A.map w.withdrawn).sum + (A.map (run cfg w evs).deposited).sum +
        (run cfg w evs).roundings + ((distributions cfg w evs).map (·.reward)).sum +
        holders w.pool A : Nat)) := by
      push_cast at h1 h2 h3 ⊢
      linarith
    have h6 := Nat.cast_lt.mp h5
    omega

/-- Alice and Carol, Bob and the owner as bystanders; a reward of 10^23 and six operations on shares. Carol comes in
just before the distribution. -/
def profitEvs : List Ev :=
  [.call "carol.near" (7 * 10 ^ 24 + 1) .depositAndStake, .epochs 1, .reward (10 ^ 23),
   .call "alice.near" 0 .unstakeAll, .call "carol.near" 0 (.unstake 777), .call "bob.near" 0 .stakeAll,
   .call "carol.near" 0 (.stake 500), .call "carol.near" 0 .unstakeAll, .epochs 4, .unlock (10 ^ 24),
   .call "carol.near" 0 .withdrawAll, .call "alice.near" 0 (.withdraw 12)]

example :
    let A := ["alice.near", "carol.near"]
    let w' := run demoCfg demo profitEvs
    Reachable demoCfg demo ∧ A.Nodup ∧
    (∀ a ∈ A, (getAccountUnstakedBalance demo.epoch demo.pool a).isOk = true ∧
      (getAccountStakedBalance demo.epoch demo.pool a).isOk = true ∧
      (getAccountUnstakedBalance w'.epoch w'.pool a).isOk = true ∧
      (getAccountStakedBalance w'.epoch w'.pool a).isOk = true) ∧
    10 ^ 23 ≤ ((distributions demoCfg demo profitEvs).map (·.reward)).sum ∧
    w'.roundings = demo.roundings + 6 ∧
    w'.withdrawn "carol.near" > 7 * 10 ^ 24 + 1 ∧ 0 < w'.withdrawn "alice.near" :=
  ⟨demo_reachable, by decide, by decide +kernel, by decide +kernel, by decide +kernel,
    by decide +kernel, by decide +kernel⟩

/-- **C113 (one account).** A single account gains at most the rewards distributed in between plus one
yocto for each stake or unstake accepted in between. When no rewards are distributed, coming in and
going out again, however often and whatever others do meanwhile, earns nothing beyond these roundings. -/
theorem C113_one_account {cfg : Cfg} {w : World} (h : Reachable cfg w) (a : AccountId)
    (evs : List Ev) {un st un' st' : Nat}
    (hu : getAccountUnstakedBalance w.epoch w.pool a = .ok un)
    (hs : getAccountStakedBalance w.epoch w.pool a = .ok st)
    (hu' : getAccountUnstakedBalance (run cfg w evs).epoch (run cfg w evs).pool a = .ok un')
    (hs' : getAccountStakedBalance (run cfg w evs).epoch (run cfg w evs).pool a = .ok st') :
    un' + st' + (run cfg w evs).withdrawn a + w.deposited a + w.roundings ≤
      un + st + w.withdrawn a + (run cfg w evs).deposited a + (run cfg w evs).roundings +
        ((distributions cfg w evs).map (·.reward)).sum := by
  have := C113_no_profit_without_rewards h (A := [a]) (List.nodup_singleton a) evs
    (un := fun _ => un) (st := fun _ => st) (un' := fun _ => un') (st' := fun _ => st')
    (by simpa using hu) (by simpa using hs) (by simpa using hu') (by simpa using hs')
  have hc : [a].countP (fun _ => decide (0 < st)) ≤ 1 := by
    simp only [List.countP_singleton]; split <;> omega
  simp only [List.map_cons, List.map_nil, List.sum_cons, List.sum_nil, Nat.add_zero] at this
  omega

/-- Carol comes in, unstakes, stakes and leaves within one epoch's rewards: no distribution. -/
example :
    let evs := [Ev.call "carol.near" (7 * 10 ^ 24 + 1) .depositAndStake,
      .call "carol.near" 0 (.unstake 777), .call "carol.near" 0 (.stake 500),
      .call "carol.near" 0 .unstakeAll, .epochs 4, .call "carol.near" 0 .withdrawAll]
    let w' := run demoCfg demo evs
    Reachable demoCfg demo ∧
    ((distributions demoCfg demo evs).map (·.reward)).sum = 0 ∧
    w'.roundings = demo.roundings + 4 ∧
    (getAccountUnstakedBalance w'.epoch w'.pool "carol.near").isOk = true ∧
    7 * 10 ^ 24 ≤ w'.withdrawn "carol.near" :=
  ⟨demo_reachable, by decide +kernel, by decide +kernel, by decide +kernel, by decide +kernel⟩

/-- **C113 (from the start).** Over the whole life of a pool no group of accounts ever holds and has
received together more than it deposited plus all that came in from outside as reward or gift, plus one
yocto for each stake or unstake accepted. In particular the owner never gets more than that, whatever
the fee. -/
theorem C113_from_the_start {cfg : Cfg} {w0 : World} (h : Started cfg w0) {A : List AccountId}
    (hA : A.Nodup) (evs : List Ev) {un' st' : AccountId → Nat}
    (hu' : ∀ a ∈ A, getAccountUnstakedBalance (run cfg w0 evs).epoch (run cfg w0 evs).pool a =
      .ok (un' a))
    (hs' : ∀ a ∈ A, getAccountStakedBalance (run cfg w0 evs).epoch (run cfg w0 evs).pool a =
      .ok (st' a)) :
    (A.map un').sum + (A.map st').sum + (A.map (run cfg w0 evs).withdrawn).sum ≤
      (A.map (run cfg w0 evs).deposited).sum + inflow evs + (run cfg w0 evs).roundings := by
  have hreach : Reachable cfg w0 := ⟨w0, [], h, rfl⟩
  obtain ⟨s0, hi⟩ := reachable_inv hreach
  have hfresh : w0.pool.lastTotalBalance = w0.liquid + w0.locked ∧ w0.pool.accounts = UMap.empty ∧
      (∀ a, w0.deposited a = 0) ∧ (∀ a, w0.withdrawn a = 0) := by
    obtain ⟨dep, owner, key, fee, bal, ep, p, effs, _, hlt, hn, rfl⟩ := h
    simp only [new, bind_ok, require_ok, subU_ok, Fee.assertValid_ok, Fee.decode_ok, pure_ok,
      Prod.mk.injEq, initEnv] at hn
    obtain ⟨_, _, _, hd, _, _, _, hf, _, _, _, ⟨h1, rfl⟩, _, _, effs1, h2, rfl, rfl⟩ := hn
    exact ⟨rfl, rfl, fun _ => rfl, fun _ => rfl⟩
  obtain ⟨hL, hacc, hd0, hw0⟩ := hfresh
  have hget : ∀ a, getAcc w0.pool a = Account.default := by
    intro a; unfold getAcc; rw [hacc]; rfl
  have hst0 : ∀ a, stakedOf w0.pool a = 0 := by
    intro a; unfold stakedOf; rw [hget]; simp [Account.default]
  have h1 := C113_no_profit_without_rewards hreach hA evs (un := fun _ => 0) (st := fun _ => 0)
    (fun a _ => by rw [getUnstaked_total hi.pool, hget]; rfl)
    (fun a _ => by rw [getStaked_total hi.pool, hst0]) hu' hs'
  have h2 := (C110_rewards_found hreach evs).2
  have e1 : (A.map fun _ => 0).sum = 0 := by simp
  have e2 : (A.map w0.deposited).sum = 0 := by
    rw [List.map_congr_left (g := fun _ => 0) (fun a _ => hd0 a)]; exact e1
  have e3 : (A.map w0.withdrawn).sum = 0 := by
    rw [List.map_congr_left (g := fun _ => 0) (fun a _ => hw0 a)]; exact e1
  have hr0 : w0.roundings = 0 := by
    obtain ⟨_, _, _, _, _, _, hr⟩ := started_inv h; exact hr
  have e4 : A.countP (fun _ => decide (0 < 0)) = 0 := by simp
  rw [e4] at h1
  simp only at h1
  omega

example :
    let evs := demoEvs ++ profitEvs
    let w' := run demoCfg demo0 evs
    Started demoCfg demo0 ∧ ["owner.near", "carol.near"].Nodup ∧
    (getAccountStakedBalance w'.epoch w'.pool "owner.near").isOk = true ∧
    0 < inflow evs ∧ 7 * 10 ^ 24 < w'.withdrawn "carol.near" :=
  ⟨demo0_started, by decide, by decide +kernel, by decide +kernel, by decide +kernel⟩

end Verif.StakingPool
