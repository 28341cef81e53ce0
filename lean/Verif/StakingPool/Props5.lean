import Verif.StakingPool.Split

/-! # Properties C70-C73: conversion accuracy, exact effects, administration, order of `ping` -/

namespace Verif.StakingPool

open Verif

/-! ## C70 -/

namespace Arith

/-- One share more or less than the exact price: the view of `s` shares grows by at most one token
when the price grows by rounding only. -/
theorem view_le_succ {T S T' S' s : Nat} (hS : 0 < S) (hS' : 0 < S') (hs : s ≤ S')
    (hp : T' * S < T * S' + S) : T' * s / S' ≤ T * s / S + 1 := by
  rw [← Nat.lt_succ_iff, Nat.div_lt_iff_lt_mul hS']
  have h2 := Nat.div_add_mod (T * s) S
  have h3 := Nat.mod_lt (T * s) hS
  refine Nat.lt_of_mul_lt_mul_right (a := S) ?_
  rcases Nat.eq_zero_or_pos s with rfl | hs0
  · have : 0 < (T * 0 / S + 1).succ * S' * S := by positivity
    simpa using this
  calc T' * s * S = s * (T' * S) := by ring
    _ < s * (T * S' + S) := Nat.mul_lt_mul_of_pos_left hp hs0
    _ = (T * s) * S' + s * S := by ring
    _ ≤ (S * (T * s / S) + S) * S' + S' * S :=
        Nat.add_le_add (Nat.mul_le_mul_right _ (by omega)) (Nat.mul_le_mul_right _ hs)
    _ = (T * s / S + 1).succ * S' * S := by rw [Nat.succ_eq_add_one]; ring

theorem down_add_lt {T S a b : Nat} (hS : 0 < S) :
    T * (a + b) / S ≤ T * a / S + T * b / S + 1 := by
  have h1 := down_le_down_add_up (T := T) (S := S) (a := a) (b := b) hS
  have h2 := up_le_succ (T := T) (S := S) (n := b) hS
  omega

theorem up_mul_lt {T S n : Nat} (hS : 0 < S) : (T * n + (S - 1)) / S * S < T * n + S := by
  have := Nat.div_mul_le_self (T * n + (S - 1)) S
  omega

/-- The charge misses the requested amount by less than the price of a share (plus one token). -/
theorem charge_gt {T S x : Nat} (hT : 0 < T) (hS : 0 < S) :
    x * S < (T * (S * x / T) / S) * S + T + S := by
  have h1 := Nat.div_add_mod (S * x) T
  have h2 := Nat.mod_lt (S * x) hT
  have h3 := Nat.div_add_mod (T * (S * x / T)) S
  have h4 := Nat.mod_lt (T * (S * x / T)) hS
  rw [Nat.mul_comm S] at h3
  rw [Nat.mul_comm x S]
  omega

/-- The credited amount exceeds the requested one by less than the price of a share plus one. -/
theorem receive_lt {T S x : Nat} (hT : 0 < T) (hS : 0 < S) :
    (T * ((S * x + (T - 1)) / T) + (S - 1)) / S * S < x * S + T + S := by
  have h1 := up_mul_lt (T := T) (n := (S * x + (T - 1)) / T) hS
  have h2 := up_mul_lt (T := S) (n := x) hT
  have h3 : T * ((S * x + (T - 1)) / T) = (S * x + (T - 1)) / T * T := Nat.mul_comm _ _
  have h4 : x * S = S * x := Nat.mul_comm _ _
  omega

end Arith

/-- **C70 (stake).** After the rewards of the epoch are distributed, `stake(x)` moves an amount `c`
from the unstaked to the staked balance of the caller: the unstaked balance falls by exactly `c`, the
reported staked balance rises by at least `c` and at most `c + 2` yocto, and `c` is `x` rounded down
to a whole number of shares: at most `x` and less than one share price plus one yocto below it. -/
theorem C70_stake_accurate {cfg : Cfg} {w : World} (h : Reachable cfg w) {a : AccountId} {x d : Nat}
    {p : Pool} {effs : List Eff} (hx : exec (mkEnv cfg w a d []) w.pool (.stake x) = .ok (p, effs))
    (he : w.pool.lastEpochHeight = w.epoch) {u v u' v' : Nat}
    (hu : getAccountUnstakedBalance w.epoch w.pool a = .ok u)
    (hv : getAccountStakedBalance w.epoch w.pool a = .ok v)
    (hu' : getAccountUnstakedBalance w.epoch p a = .ok u')
    (hv' : getAccountStakedBalance w.epoch p a = .ok v') :
    ∃ c, u' + c = u ∧ v + c ≤ v' ∧ v' ≤ v + c + 2 ∧ 0 < c ∧ c ≤ x ∧
      x * w.pool.totalStakeShares <
        c * w.pool.totalStakeShares + w.pool.totalStakedBalance + w.pool.totalStakeShares := by
  obtain ⟨s0, hi⟩ := reachable_inv h
  obtain ⟨s1, b, _, hp, hb⟩ := (exec_split_ok (by rfl)).mp hx
  have hp' : internalPing (mkEnv cfg w a d []) w.pool = .ok (w.pool, false) :=
    internalPing_ok.mpr (.inl ⟨he, rfl, rfl⟩)
  rw [hp'] at hp
  cases hp
  simp only [post, bind_ok, pure_ok, Prod.mk.injEq] at hb
  obtain ⟨s2, hs, effs1, _, rfl, rfl⟩ := hb
  obtain ⟨of, _, n, c, up, _, hn0, hc0, hn, hc, hup, hcu, hT, hS, _, hacc⟩ :=
    stake_facts hi.pool hs
  rw [show (mkEnv cfg w a d []).predecessor = a from rfl] at hcu hacc
  rw [getUnstaked_total hi.pool] at hu
  rw [getStaked_total hi.pool] at hv
  rw [getUnstaked_total of.inv] at hu'
  rw [getStaked_total of.inv] at hv'
  cases hu; cases hv; cases hu'; cases hv'
  have hS0 := hi.pool.S_pos
  have hT0 := hi.pool.T_pos
  have hS0' := of.inv.S_pos
  have hle' := of.inv.acc_le a
  have hsh : (getAcc s2 a).stakeShares = (getAcc w.pool a).stakeShares + n := by rw [hacc]
  refine ⟨c, ?_, ?_, ?_, hc0, ?_, ?_⟩
  · rw [hacc]; simp only; omega
  · have h1 := Arith.view_mono (s := (getAcc s2 a).stakeShares) hS0 hS0' of.price
    have h2 := Arith.down_add_le w.pool.totalStakedBalance w.pool.totalStakeShares
      (getAcc w.pool a).stakeShares n
    rw [← hsh, ← hc] at h2
    unfold stakedOf
    omega
  · have hpr : s2.totalStakedBalance * w.pool.totalStakeShares <
        w.pool.totalStakedBalance * s2.totalStakeShares + w.pool.totalStakeShares := by
      rw [hT, hS, hup, Nat.add_mul, Nat.mul_add]
      have := Arith.up_mul_lt (T := w.pool.totalStakedBalance) (n := n) hS0
      omega
    have h1 := Arith.view_le_succ (s := (getAcc s2 a).stakeShares) hS0 hS0' hle' hpr
    have h2 := Arith.down_add_lt (T := w.pool.totalStakedBalance) (S := w.pool.totalStakeShares)
      (a := (getAcc w.pool a).stakeShares) (b := n) hS0
    rw [← hsh, ← hc] at h2
    unfold stakedOf
    omega
  · rw [hc, hn]; exact Arith.charge_le
  · rw [hc, hn]; exact Arith.charge_gt hT0 hS0

/-- **C70 (unstake).** After the rewards of the epoch are distributed, `unstake(x)` moves an amount
`r` from the staked to the unstaked balance of the caller: the unstaked balance rises by exactly `r`,
the reported staked balance falls by at most `r` and at least `r - 2` yocto, and `r` is `x` rounded up
to a whole number of shares: at least `x` and less than one share price plus one yocto above it. -/
theorem C70_unstake_accurate {cfg : Cfg} {w : World} (h : Reachable cfg w) {a : AccountId}
    {x d : Nat} {p : Pool} {effs : List Eff}
    (hx : exec (mkEnv cfg w a d []) w.pool (.unstake x) = .ok (p, effs))
    (he : w.pool.lastEpochHeight = w.epoch) {u v u' v' : Nat}
    (hu : getAccountUnstakedBalance w.epoch w.pool a = .ok u)
    (hv : getAccountStakedBalance w.epoch w.pool a = .ok v)
    (hu' : getAccountUnstakedBalance w.epoch p a = .ok u')
    (hv' : getAccountStakedBalance w.epoch p a = .ok v') :
    ∃ r, u' = u + r ∧ v ≤ v' + r ∧ v' + r ≤ v + 2 ∧ x ≤ r ∧
      r * w.pool.totalStakeShares <
        x * w.pool.totalStakeShares + w.pool.totalStakedBalance + w.pool.totalStakeShares := by
  obtain ⟨s0, hi⟩ := reachable_inv h
  obtain ⟨s1, b, _, hp, hb⟩ := (exec_split_ok (by rfl)).mp hx
  have hp' : internalPing (mkEnv cfg w a d []) w.pool = .ok (w.pool, false) :=
    internalPing_ok.mpr (.inl ⟨he, rfl, rfl⟩)
  rw [hp'] at hp
  cases hp
  simp only [post, bind_ok, pure_ok, Prod.mk.injEq] at hb
  obtain ⟨s2, hs, effs1, _, rfl, rfl⟩ := hb
  obtain ⟨of, _, n, r, dn, _, hn0, hr0, hn, hr, hdn, hcu, hT, hS, _, hacc⟩ :=
    unstake_facts hi.pool hs
  rw [show (mkEnv cfg w a d []).predecessor = a from rfl] at hcu hacc
  rw [getUnstaked_total hi.pool] at hu
  rw [getStaked_total hi.pool] at hv
  rw [getUnstaked_total of.inv] at hu'
  rw [getStaked_total of.inv] at hv'
  cases hu; cases hv; cases hu'; cases hv'
  have hS0 := hi.pool.S_pos
  have hT0 := hi.pool.T_pos
  have hS0' := of.inv.S_pos
  have hle' := of.inv.acc_le a
  have hsh : (getAcc w.pool a).stakeShares = (getAcc s2 a).stakeShares + n := by
    rw [hacc]; simp only; omega
  have hup := Arith.up_le_succ (T := w.pool.totalStakedBalance) (S := w.pool.totalStakeShares)
    (n := n) hS0
  refine ⟨r, ?_, ?_, ?_, ?_, ?_⟩
  · rw [hacc]
  · have h1 := Arith.view_mono (s := (getAcc s2 a).stakeShares) hS0 hS0' of.price
    have h2 := Arith.down_le_down_add_up (T := w.pool.totalStakedBalance)
      (S := w.pool.totalStakeShares) (a := (getAcc s2 a).stakeShares) (b := n) hS0
    rw [← hsh, ← hr] at h2
    unfold stakedOf
    omega
  · have hpr : s2.totalStakedBalance * w.pool.totalStakeShares <
        w.pool.totalStakedBalance * s2.totalStakeShares + w.pool.totalStakeShares := by
      have e1 : s2.totalStakedBalance * w.pool.totalStakeShares + dn * w.pool.totalStakeShares =
          w.pool.totalStakedBalance * w.pool.totalStakeShares := by rw [← Nat.add_mul, hT]
      have e2 : w.pool.totalStakedBalance * s2.totalStakeShares + w.pool.totalStakedBalance * n =
          w.pool.totalStakedBalance * w.pool.totalStakeShares := by rw [← Nat.mul_add, hS]
      have e3 := Nat.div_add_mod (w.pool.totalStakedBalance * n) w.pool.totalStakeShares
      have e4 := Nat.mod_lt (w.pool.totalStakedBalance * n) hS0
      rw [← hdn, Nat.mul_comm] at e3
      omega
    have h1 := Arith.view_le_succ (s := (getAcc s2 a).stakeShares) hS0 hS0' hle' hpr
    have h2 := Arith.down_add_le w.pool.totalStakedBalance w.pool.totalStakeShares
      (getAcc s2 a).stakeShares n
    rw [← hsh] at h2
    unfold stakedOf
    omega
  · rw [hr, hn]; exact Arith.receive_ge hT0 hS0
  · rw [hr, hn]; exact Arith.receive_lt hT0 hS0

/-- The hypotheses of the C70 theorems are met: Bob stakes 5, Alice unstakes 999. -/
example : Reachable demoCfg demo ∧ demo.pool.lastEpochHeight = demo.epoch ∧
    (exec (mkEnv demoCfg demo "bob.near" 0 []) demo.pool (.stake 5)).isOk = true ∧
    (exec (mkEnv demoCfg demo "alice.near" 0 []) demo.pool (.unstake 999)).isOk = true :=
  ⟨demo_reachable, by decide +kernel, by decide +kernel, by decide +kernel⟩

/-! ## C71 -/

/-- The stake action that brings the validator's stake to what the pool reports. -/
def restakeTo (after : Pool) : List Eff :=
  if isStakingPaused after = true then []
  else [.stake (getTotalStakedBalance after) (getStakingKey after) true]

/-- The promises a successful call must create, from the states before and after it. -/
def expectedEffects (who : AccountId) (unstaked epoch : Nat) (before after : Pool) : Call → List Eff
  | .ping | .deposit | .updateRewardFeeFraction _ =>
    if before.lastEpochHeight = epoch then [] else restakeTo after
  | .withdraw x =>
    .transfer who x :: (if before.lastEpochHeight = epoch then [] else restakeTo after)
  | .withdrawAll =>
    .transfer who unstaked :: (if before.lastEpochHeight = epoch then [] else restakeTo after)
  | .depositAndStake | .stake _ | .stakeAll | .unstake _ | .unstakeAll | .updateStakingKey _
  | .resumeStaking => restakeTo after
  | .pauseStaking => [.stake 0 (getStakingKey after) false]
  | .vote poll isVote => [.voteCall poll isVote]
  | .onStakeAction => []

theorem restake_eq {e : Env} {s : Pool} {effs : List Eff} (h : internalRestake e s = .ok effs) :
    effs = restakeTo s := by
  rw [internalRestake_ok] at h
  unfold restakeTo isStakingPaused getTotalStakedBalance getStakingKey
  rcases h with ⟨h1, rfl⟩ | ⟨h1, _, rfl⟩ <;> simp [h1]

/-- **C71.** A successful call creates exactly the promises that keep the validator's stake in step
with the books, and no others: the stake is set to the reported total whenever rewards were
distributed, tokens were staked or unstaked, the key changed or staking resumed (nothing while
paused); pausing sets it to zero; withdrawals add one transfer of the withdrawn amount to the
caller; a vote is one call to the poll. -/
theorem C71_effects_exact {cfg : Cfg} {w : World} (h : Reachable cfg w) {a : AccountId} {d : Nat}
    {c : Call} {p : Pool} {effs : List Eff}
    (hx : exec (mkEnv cfg w a d []) w.pool c = .ok (p, effs))
    {u : Nat} (hu : getAccountUnstakedBalance w.epoch w.pool a = .ok u) :
    effs = expectedEffects a u w.epoch w.pool p c := by
  obtain ⟨s0, hi⟩ := reachable_inv h
  rw [getUnstaked_total hi.pool] at hu
  cases hu
  by_cases hc : c.pings = true
  · obtain ⟨s1, need, _, hp, hb⟩ := (exec_split_ok hc).mp hx
    have hpf := ping_facts hi.pool hp
    have hun := hpf.unstaked a
    have hneed : need = decide (w.pool.lastEpochHeight ≠ w.epoch) := by
      rcases ping_exact hp with ⟨h1, _, rfl⟩ | ⟨h1, rfl, _⟩
      · exact (decide_eq_false (fun hne => hne h1)).symm
      · exact (decide_eq_true h1).symm
    have rsIf : ∀ {s : Pool} {l : List Eff}, restakeIf (mkEnv cfg w a d []) s need = .ok l →
        l = if w.pool.lastEpochHeight = w.epoch then [] else restakeTo s := by
      intro s l hl
      rw [restakeIf_ok, hneed] at hl
      rcases hl with ⟨h1, rfl⟩ | ⟨h1, h2⟩
      · rw [if_pos (by simpa using h1)]
      · rw [if_neg (by simpa using h1)]; exact restake_eq h2
    have hwd : ∀ {s2 : Pool} {x : Nat} {l : List Eff},
        internalWithdraw (mkEnv cfg w a d []) s1 x = .ok (s2, l) → l = [.transfer a x] := by
      intro s2 x l hl
      rw [internalWithdraw_ok] at hl
      exact hl.2.2.2.2.2.1
    cases c <;> first | (cases hc; done) | skip
    all_goals simp only [post, bind_ok, pure_ok, Prod.exists, Prod.mk.injEq] at hb
    · obtain ⟨e1, h1, rfl, rfl⟩ := hb; exact rsIf h1
    · obtain ⟨s2, _, h2, e1, h1, rfl, rfl⟩ := hb; exact rsIf h1
    · obtain ⟨s2, _, h2, s3, h3, e1, h1, rfl, rfl⟩ := hb; exact restake_eq h1
    · obtain ⟨s2, l, h2, e1, h1, rfl, rfl⟩ := hb
      rw [hwd h2, rsIf h1]
      rw [show (mkEnv cfg w a d []).predecessor = a from rfl, hun]; rfl
    · obtain ⟨s2, l, h2, e1, h1, rfl, rfl⟩ := hb
      rw [hwd h2, rsIf h1]; rfl
    · obtain ⟨s2, h2, e1, h1, rfl, rfl⟩ := hb; exact restake_eq h1
    · obtain ⟨s2, h2, e1, h1, rfl, rfl⟩ := hb; exact restake_eq h1
    · obtain ⟨_, _, s2, h2, e1, h1, rfl, rfl⟩ := hb; exact restake_eq h1
    · obtain ⟨s2, h2, e1, h1, rfl, rfl⟩ := hb; exact restake_eq h1
    · obtain ⟨e1, h1, rfl, rfl⟩ := hb; exact restake_eq h1
    · obtain ⟨e1, h1, rfl, rfl⟩ := hb; exact rsIf h1
    · obtain ⟨_, _, rfl, rfl⟩ := hb; rfl
    · obtain ⟨e1, h1, rfl, rfl⟩ := hb; exact restake_eq h1
  · cases c <;> first | (exact absurd rfl hc) | skip
    · simp only [exec, onStakeAction, bind_ok, require_ok] at hx
      obtain ⟨_, _, _, _, _, h3, _⟩ := hx
      exact absurd h3 (by simp [mkEnv])
    · simp only [exec, vote, bind_ok, pure_ok, Prod.mk.injEq] at hx
      obtain ⟨_, _, _, _, _, _, rfl, rfl⟩ := hx
      rfl

/-- The hypotheses of C71 are met by calls that restake, that do not, and that pay. -/
example : Reachable demoCfg demo ∧
    (match exec (mkEnv demoCfg demo "bob.near" 0 []) demo.pool (.withdraw 5) with
      | .ok (_, [.transfer r x]) => decide (r = "bob.near" ∧ x = 5)
      | _ => false) = true ∧
    (match exec (mkEnv demoCfg { demo with epoch := 9 } "bob.near" 0 []) demo.pool (.withdraw 5) with
      | .ok (_, [.transfer _ _, .stake _ _ true]) => true
      | _ => false) = true :=
  ⟨demo_reachable, by decide +kernel, by decide +kernel⟩

/-! ## C72 -/

/-- What an administrative call does to the settings, given the state after the distribution. -/
def setting (p0 : Pool) : Call → Pool
  | .updateStakingKey k => { p0 with stakePublicKey := k }
  | .updateRewardFeeFraction f => { p0 with rewardFee := f }
  | .pauseStaking => { p0 with paused := true }
  | .resumeStaking => { p0 with paused := false }
  | _ => p0

/-- **C72 (effect).** An administrative call first distributes the pending rewards under the old
settings, exactly as `ping` does, and then changes the one setting it names; `vote` changes nothing.
In particular a new fee never applies to rewards that were already there. -/
theorem C72_admin_calls_exact {cfg : Cfg} {w : World} (h : Reachable cfg w) {a : AccountId}
    {d : Nat} {c : Call} {p : Pool} {effs : List Eff} (hc : c.isAdmin)
    (hx : exec (mkEnv cfg w a d []) w.pool c = .ok (p, effs)) :
    (∀ v b, c = .vote v b → p = w.pool) ∧
    ((∀ v b, c ≠ .vote v b) →
      ∃ p0 effs0, exec (mkEnv cfg w a 0 []) w.pool .ping = .ok (p0, effs0) ∧ p = setting p0 c) := by
  obtain ⟨s0, hi⟩ := reachable_inv h
  refine ⟨?_, ?_⟩
  · rintro v b rfl
    simp only [exec, vote, bind_ok, pure_ok, Prod.mk.injEq] at hx
    obtain ⟨_, _, _, _, _, _, rfl, rfl⟩ := hx
    rfl
  · intro hv
    have hpings : c.pings = true := by
      cases c <;> first | rfl | (exact absurd rfl (hv _ _)) | cases hc
    obtain ⟨s1, need, hpre, hp, hb⟩ := (exec_split_ok hpings).mp hx
    have hd : d = 0 := by
      cases c <;> first | (cases hc; done) | skip
      all_goals simp only [pre, bind_ok, notPayable_ok] at hpre
      · obtain ⟨_, h0, _⟩ := hpre; exact h0
      · obtain ⟨_, h0, _⟩ := hpre; exact h0
      · exact hpre
      · obtain ⟨_, h0, _⟩ := hpre; exact h0
      · obtain ⟨_, h0, _⟩ := hpre; exact h0
    subst hd
    have hpf := ping_facts hi.pool hp
    obtain ⟨effs0, hr⟩ := restakeIf_total (e := mkEnv cfg w a 0 []) (s := s1) need
      (by rw [hpf.paused, hpf.key]; exact hi.key)
    refine ⟨s1, effs0, ?_, ?_⟩
    · simp only [exec, ping, bind_ok, notPayable_ok, pure_ok, Prod.exists, Prod.mk.injEq]
      exact ⟨(), rfl, s1, need, hp, effs0, hr, rfl, rfl⟩
    · cases c <;> first | (cases hc; done) | skip
      all_goals simp only [post, bind_ok, pure_ok, Prod.mk.injEq] at hb
      · obtain ⟨_, _, rfl, _⟩ := hb; rfl
      · obtain ⟨_, _, rfl, _⟩ := hb; rfl
      · exact absurd rfl (hv _ _)
      · obtain ⟨_, _, rfl, _⟩ := hb; rfl
      · obtain ⟨_, _, rfl, _⟩ := hb; rfl

/-- Settings after a call that is not the one changing them. -/
theorem exec_settings {s0 : Nat} {e : Env} {s p : Pool} {c : Call} {effs : List Eff}
    (hi : PoolInv s0 s) (hx : exec e s c = .ok (p, effs)) :
    (p.rewardFee = s.rewardFee ∨
      (e.predecessor = s.ownerId ∧ e.attachedDeposit = 0 ∧ c = .updateRewardFeeFraction p.rewardFee)) ∧
    (p.stakePublicKey = s.stakePublicKey ∨
      (e.predecessor = s.ownerId ∧ e.attachedDeposit = 0 ∧ c = .updateStakingKey p.stakePublicKey)) := by
  by_cases hc : c.pings = true
  · obtain ⟨s1, need, hpre, hp, hb⟩ := (exec_split_ok hc).mp hx
    have hpf := ping_facts hi hp
    have fin : ∀ {q : Pool}, OpFacts s0 e.predecessor s1 q →
        q.rewardFee = s.rewardFee ∧ q.stakePublicKey = s.stakePublicKey :=
      fun of => ⟨of.feeEq.trans hpf.feeEq, of.key.trans hpf.key⟩
    have two : ∀ {x y : Prop}, p.rewardFee = s.rewardFee ∧ p.stakePublicKey = s.stakePublicKey →
        (p.rewardFee = s.rewardFee ∨ x) ∧ (p.stakePublicKey = s.stakePublicKey ∨ y) :=
      fun h => ⟨.inl h.1, .inl h.2⟩
    cases c <;> first | (cases hc; done) | skip
    all_goals simp only [post, bind_ok, pure_ok, Prod.exists, Prod.mk.injEq] at hb
    · obtain ⟨e1, h1, rfl, rfl⟩ := hb; exact two ⟨hpf.feeEq, hpf.key⟩
    · obtain ⟨s2, _, h2, e1, h1, rfl, rfl⟩ := hb
      exact two (fin (deposit_facts hpf.inv h2).1)
    · obtain ⟨s2, _, h2, s3, h3, e1, h1, rfl, rfl⟩ := hb
      have f1 := (deposit_facts hpf.inv h2).1
      have f2 := (stake_facts f1.inv h3).1
      exact two ⟨f2.feeEq.trans (f1.feeEq.trans hpf.feeEq), f2.key.trans (f1.key.trans hpf.key)⟩
    · obtain ⟨s2, l, h2, e1, h1, rfl, rfl⟩ := hb
      exact two (fin (withdraw_facts hpf.inv h2).1)
    · obtain ⟨s2, l, h2, e1, h1, rfl, rfl⟩ := hb
      exact two (fin (withdraw_facts hpf.inv h2).1)
    · obtain ⟨s2, h2, e1, h1, rfl, rfl⟩ := hb; exact two (fin (stake_facts hpf.inv h2).1)
    · obtain ⟨s2, h2, e1, h1, rfl, rfl⟩ := hb; exact two (fin (stake_facts hpf.inv h2).1)
    · obtain ⟨_, _, s2, h2, e1, h1, rfl, rfl⟩ := hb; exact two (fin (unstake_facts hpf.inv h2).1)
    · obtain ⟨s2, h2, e1, h1, rfl, rfl⟩ := hb; exact two (fin (unstake_facts hpf.inv h2).1)
    · obtain ⟨e1, h1, rfl, rfl⟩ := hb
      simp only [pre, bind_ok, notPayable_ok, assertOwner_ok] at hpre
      obtain ⟨_, h0, ho⟩ := hpre
      exact ⟨.inl hpf.feeEq, .inr ⟨ho, h0, rfl⟩⟩
    · obtain ⟨e1, h1, rfl, rfl⟩ := hb
      simp only [pre, bind_ok, notPayable_ok, assertOwner_ok] at hpre
      obtain ⟨_, h0, _, _, _, ho, _⟩ := hpre
      exact ⟨.inr ⟨ho, h0, rfl⟩, .inl hpf.key⟩
    · obtain ⟨_, _, rfl, rfl⟩ := hb; exact two ⟨hpf.feeEq, hpf.key⟩
    · obtain ⟨e1, h1, rfl, rfl⟩ := hb; exact two ⟨hpf.feeEq, hpf.key⟩
  · cases c <;> first | (exact absurd rfl hc) | skip
    · have := (onStakeAction_state hx).1
      subst this; exact ⟨.inl rfl, .inl rfl⟩
    · simp only [exec, vote, bind_ok, pure_ok, Prod.mk.injEq] at hx
      obtain ⟨_, _, _, _, _, _, rfl, rfl⟩ := hx
      exact ⟨.inl rfl, .inl rfl⟩

/-- **C72 (history).** `new` stores the given key and fee; afterwards each changes only in a
deposit-free call of the owner to the method for it, and becomes the value of that call. -/
theorem C72_settings_history {cfg : Cfg} {w : World} (h : Reachable cfg w) (ev : Ev) :
    (getRewardFeeFraction (step cfg w ev).pool = getRewardFeeFraction w.pool ∨
      ev = .call (getOwnerId w.pool) 0
        (.updateRewardFeeFraction (getRewardFeeFraction (step cfg w ev).pool))) ∧
    (getStakingKey (step cfg w ev).pool = getStakingKey w.pool ∨
      ev = .call (getOwnerId w.pool) 0
        (.updateStakingKey (getStakingKey (step cfg w ev).pool))) := by
  obtain ⟨s0, hi⟩ := reachable_inv h
  unfold getRewardFeeFraction getStakingKey getOwnerId
  have hr := step_rel cfg w ev
  generalize step cfg w ev = w' at hr
  cases hr with
  | env h1 => rw [h1]; exact ⟨.inl rfl, .inl rfl⟩
  | callback => exact ⟨.inl rfl, .inl rfl⟩
  | @call who att c p effs hev _ hx =>
    subst hev
    obtain ⟨h1, h2⟩ := exec_settings hi.pool hx
    refine ⟨h1.imp id ?_, h2.imp id ?_⟩
    · rintro ⟨ho, hd, hc⟩
      change Ev.call who att c = Ev.call w.pool.ownerId 0 (.updateRewardFeeFraction p.rewardFee)
      rw [← hc]
      rw [show who = w.pool.ownerId from ho, show att = 0 from hd]
    · rintro ⟨ho, hd, hc⟩
      change Ev.call who att c = Ev.call w.pool.ownerId 0 (.updateStakingKey p.stakePublicKey)
      rw [← hc]
      rw [show who = w.pool.ownerId from ho, show att = 0 from hd]

/-- **C72 (initial settings).** -/
theorem C72_initial_settings {e : Env} {st : Bool} {owner : AccountId} {key : PublicKey} {fee : Fee}
    {p : Pool} {effs : List Eff} (h : new e st owner key fee = .ok (p, effs)) :
    getOwnerId p = owner ∧ getStakingKey p = key ∧ getRewardFeeFraction p = fee ∧
    isStakingPaused p = false ∧ getNumberOfAccounts p = 0 ∧
    getTotalStakedBalance p + guaranteeFund = e.accountBalance ∧
    effs = [.stake (getTotalStakedBalance p) key true] := by
  simp only [new, bind_ok, require_ok, subU_ok, pure_ok, Prod.mk.injEq] at h
  obtain ⟨_, _, _, _, _, _, _, _, _, _, total, ht, _, _, effs1, h2, rfl, rfl⟩ := h
  have h3 := restake_eq h2
  refine ⟨rfl, rfl, rfl, rfl, rfl, ?_, h3.trans rfl⟩
  show total + guaranteeFund = e.accountBalance
  rw [ht.2]
  exact Nat.sub_add_cancel ht.1

/-- **C72 (initialization, exactly).** `new` succeeds exactly when no deposit is attached, nothing was
initialized before, the fee is a fraction of `u32` numbers between 0 and 1, the owner's name and the
staking key are valid, nothing is staked yet and the account holds the guarantee fund; all tokens
beyond the fund are then staked at price one, nobody has an account, and staking is not paused. -/
theorem C72_new_exact (e : Env) (st : Bool) (owner : AccountId) (key : PublicKey) (fee : Fee)
    (p : Pool) (effs : List Eff) :
    new e st owner key fee = .ok (p, effs) ↔
      e.attachedDeposit = 0 ∧ st = false ∧ fee.numerator ≤ fee.denominator ∧ 0 < fee.denominator ∧
      fee.denominator < 2 ^ 32 ∧ e.validAccountId owner = true ∧ e.validPublicKey key = true ∧
      e.accountLockedBalance = 0 ∧ 10 ^ 12 ≤ e.accountBalance ∧
      effs = [.stake (e.accountBalance - 10 ^ 12) key true] ∧
      p = { ownerId := owner, stakePublicKey := key, lastEpochHeight := e.epochHeight,
            lastTotalBalance := e.accountBalance,
            totalStakeShares := e.accountBalance - 10 ^ 12,
            totalStakedBalance := e.accountBalance - 10 ^ 12,
            rewardFee := fee, accounts := UMap.empty, paused := false } := by
  have hg : guaranteeFund = 10 ^ 12 := by unfold guaranteeFund; norm_num
  have h32 : two32 = 2 ^ 32 := rfl
  rw [← hg, ← h32]
  simp only [new, bind_ok, require_ok, subU_ok, pure_ok, Prod.mk.injEq, Fee.assertValid_ok,
    Fee.decode_ok, internalRestake]
  clear hg
  constructor
  · rintro ⟨_, h1, _, h2, _, h3, _, h4, _, h5, t, ⟨h6, rfl⟩, _, h7, ef, h8, rfl, rfl⟩
    simp only [Bool.false_eq_true, if_false, bind_ok, require_ok, pure_ok] at h8
    obtain ⟨_, h9, rfl⟩ := h8
    exact ⟨h1, h3, h4.2, Nat.pos_of_ne_zero h4.1, h2.2, h5, h9, h7, h6, rfl, rfl⟩
  · rintro ⟨h1, h3, h4, h5, h6, h7, h8, h9, h10, rfl, rfl⟩
    refine ⟨(), h1, (), ⟨by omega, h6⟩, (), h3, (), ⟨by omega, h4⟩, (), h7, _, ⟨h10, rfl⟩, (), h9, _, ?_,
      rfl, rfl⟩
    simp only [Bool.false_eq_true, if_false, bind_ok, require_ok, pure_ok]
    exact ⟨(), h8, trivial⟩

/-- The hypotheses of the C72 theorems are met: the owner changes the fee while rewards are pending. -/
example : Reachable demoCfg demo ∧
    (exec (mkEnv demoCfg { demo with epoch := 9, locked := demo.locked + 10 ^ 20 } "owner.near" 0 [])
      demo.pool (.updateRewardFeeFraction ⟨1, 3⟩)).isOk = true ∧
    (exec (mkEnv demoCfg demo "owner.near" 0 []) demo.pool (.vote "vote" true)).isOk = true ∧
    demoNew.isOk = true :=
  ⟨demo_reachable, by decide +kernel, by decide +kernel, by decide +kernel⟩

/-! ## C73 -/

/-- The transfers among the effects. -/
def transfers (effs : List Eff) : List Eff :=
  effs.filter (fun e => match e with | .transfer _ _ => true | _ => false)

theorem transfers_restake {s : Pool} : transfers (restakeTo s) = [] := by
  unfold transfers restakeTo
  split <;> rfl

theorem transfers_append (l1 l2 : List Eff) : transfers (l1 ++ l2) = transfers l1 ++ transfers l2 :=
  List.filter_append ..

/-- The operation after the distribution does not depend on whether it just distributed, except for
the stake action. -/
theorem post_need {s0 : Nat} {e : Env} {s p : Pool} {c : Call} (need need' : Bool)
    (hi : PoolInv s0 s) (hk : s.paused = true ∨ e.validPublicKey s.stakePublicKey = true)
    {effs : List Eff} (h : post e s need c = .ok (p, effs)) :
    ∃ effs', post e s need' c = .ok (p, effs') ∧ transfers effs' = transfers effs := by
  have tr : ∀ {q : Pool} {b : Bool} {l : List Eff}, restakeIf e q b = .ok l → transfers l = [] := by
    intro q b l hl
    rw [restakeIf_ok] at hl
    rcases hl with ⟨_, rfl⟩ | ⟨_, h2⟩
    · rfl
    · rw [restake_eq h2]; exact transfers_restake
  have tot : ∀ {q : Pool}, q.paused = s.paused → q.stakePublicKey = s.stakePublicKey →
      ∃ l, restakeIf e q need' = .ok l :=
    fun h1 h2 => restakeIf_total need' (by rw [h1, h2]; exact hk)
  cases c with
  | ping =>
    simp only [post, bind_ok, pure_ok, Prod.mk.injEq] at h ⊢
    obtain ⟨l, h1, rfl, rfl⟩ := h
    obtain ⟨l', h1'⟩ := tot (q := s) rfl rfl
    exact ⟨l', ⟨l', h1', rfl, rfl⟩, by rw [tr h1, tr h1']⟩
  | deposit =>
    simp only [post, bind_ok, pure_ok, Prod.exists, Prod.mk.injEq] at h ⊢
    obtain ⟨s2, x, h2, l, h1, rfl, rfl⟩ := h
    have f := (deposit_facts hi h2).1
    obtain ⟨l', h1'⟩ := tot f.paused f.key
    exact ⟨l', ⟨s2, x, h2, l', h1', rfl, rfl⟩, by rw [tr h1, tr h1']⟩
  | withdrawAll =>
    simp only [post, bind_ok, pure_ok, Prod.exists, Prod.mk.injEq] at h ⊢
    obtain ⟨s2, x, h2, l, h1, rfl, rfl⟩ := h
    have f := (withdraw_facts hi h2).1
    obtain ⟨l', h1'⟩ := tot f.paused f.key
    exact ⟨x ++ l', ⟨s2, x, h2, l', h1', rfl, rfl⟩, by
      rw [transfers_append, transfers_append, tr h1, tr h1']⟩
  | withdraw y =>
    simp only [post, bind_ok, pure_ok, Prod.exists, Prod.mk.injEq] at h ⊢
    obtain ⟨s2, x, h2, l, h1, rfl, rfl⟩ := h
    have f := (withdraw_facts hi h2).1
    obtain ⟨l', h1'⟩ := tot f.paused f.key
    exact ⟨x ++ l', ⟨s2, x, h2, l', h1', rfl, rfl⟩, by
      rw [transfers_append, transfers_append, tr h1, tr h1']⟩
  | updateRewardFeeFraction f =>
    simp only [post, bind_ok, pure_ok, Prod.mk.injEq] at h ⊢
    obtain ⟨l, h1, rfl, rfl⟩ := h
    obtain ⟨l', h1'⟩ := tot (q := { s with rewardFee := f }) rfl rfl
    exact ⟨l', ⟨l', h1', rfl, rfl⟩, by rw [tr h1, tr h1']⟩
  | depositAndStake => exact ⟨effs, h, rfl⟩
  | stakeAll => exact ⟨effs, h, rfl⟩
  | stake _ => exact ⟨effs, h, rfl⟩
  | unstakeAll => exact ⟨effs, h, rfl⟩
  | unstake _ => exact ⟨effs, h, rfl⟩
  | onStakeAction => exact ⟨effs, h, rfl⟩
  | updateStakingKey _ => exact ⟨effs, h, rfl⟩
  | vote _ _ => exact ⟨effs, h, rfl⟩
  | pauseStaking => exact ⟨effs, h, rfl⟩
  | resumeStaking => exact ⟨effs, h, rfl⟩

/-- The reward distribution does not depend on who calls and on the attached deposit. -/
theorem ping_caller {cfg : Cfg} {w : World} {a b : AccountId} {d : Nat}
    (hd : w.locked + (w.liquid + d) < two128) {r : Pool × Bool} :
    internalPing (mkEnv cfg w b 0 []) w.pool = .ok r ↔
      internalPing (mkEnv cfg w a d []) w.pool = .ok r := by
  obtain ⟨s1, n⟩ := r
  rw [internalPing_ok, internalPing_ok]
  have e1 : w.locked + (w.liquid + 0) - 0 = w.locked + (w.liquid + d) - d := by omega
  simp only [mkEnv]
  rw [← e1]
  constructor
  · rintro (h | ⟨h1, h2, h3, h4, h5⟩)
    · exact .inl h
    · exact .inr ⟨h1, h2, by omega, by omega, h5⟩
  · rintro (h | ⟨h1, h2, h3, h4, h5⟩)
    · exact .inl h
    · exact .inr ⟨h1, h2, by omega, by omega, h5⟩

/-- **C73.** A `ping` by anybody right before a call makes no difference to it: the call succeeds
with the same resulting state and the same transfers as without the `ping`, or fails in both cases.
Nobody gains or loses by the moment at which the rewards of the epoch are distributed. (`vote` and
the callback are the calls that do not distribute.) -/
theorem C73_ping_first_is_neutral {cfg : Cfg} {w : World} (h : Reachable cfg w) {a b : AccountId}
    (hb : b ≠ cfg.self) {d : Nat} (hd : w.locked + (w.liquid + d) < two128) {c : Call}
    (hc : c.pings = true) (p : Pool) (t : List Eff) :
    (∃ effs, exec (mkEnv cfg w a d []) w.pool c = .ok (p, effs) ∧ transfers effs = t) ↔
    ∃ effs, exec (mkEnv cfg (step cfg w (.call b 0 .ping)) a d [])
        (step cfg w (.call b 0 .ping)).pool c = .ok (p, effs) ∧ transfers effs = t := by
  obtain ⟨s0, hi⟩ := reachable_inv h
  cases hping : exec (mkEnv cfg w b 0 []) w.pool .ping with
  | error m =>
    have : step cfg w (.call b 0 .ping) = w := by simp only [step, if_neg hb, doCall, hping]
    rw [this]
  | ok r =>
    obtain ⟨s1, l⟩ := r
    have hstep : step cfg w (.call b 0 .ping) = commit w b 0 .ping s1 l := by
      simp only [step, if_neg hb, doCall, hping]
    obtain ⟨s1', need, _, hp, hbody⟩ := (exec_split_ok (c := .ping) rfl).mp hping
    simp only [post, bind_ok, pure_ok, Prod.mk.injEq] at hbody
    obtain ⟨l', hl, rfl, rfl⟩ := hbody
    have hpf := ping_facts hi.pool hp
    have hpaid : paidOut l' = 0 := paidOut_noTransfer (restakeIf_noTransfer hl)
    have henv : mkEnv cfg (commit w b 0 .ping s1' l') a d [] = mkEnv cfg w a d [] := by
      simp only [mkEnv, commit, hpaid, Nat.add_zero, Nat.sub_zero]
    rw [hstep, henv]
    change _ ↔ ∃ effs, exec (mkEnv cfg w a d []) s1' c = _ ∧ _
    have hpa : internalPing (mkEnv cfg w a d []) w.pool = .ok (s1', need) := (ping_caller hd).mp hp
    have hp2 : internalPing (mkEnv cfg w a d []) s1' = .ok (s1', false) := by
      refine internalPing_ok.mpr (.inl ⟨?_, rfl, rfl⟩)
      rcases ping_exact hpa with ⟨h1, rfl, _⟩ | ⟨_, _, h1⟩ <;> exact h1
    have hpre := pre_congr (e := mkEnv cfg w a d []) hpf.owner hpf.paused c
    have hk : s1'.paused = true ∨ cfg.validPublicKey s1'.stakePublicKey = true := by
      rw [hpf.paused, hpf.key]; exact hi.key
    constructor
    · rintro ⟨effs, hx, ht⟩
      obtain ⟨s2, n2, h1, h2, h3⟩ := (exec_split_ok hc).mp hx
      rw [hpa] at h2
      cases h2
      obtain ⟨effs', h4, h5⟩ := post_need need false hpf.inv hk h3
      exact ⟨effs', (exec_split_ok hc).mpr ⟨s1', false, by rw [hpre, h1], hp2, h4⟩, h5.trans ht⟩
    · rintro ⟨effs, hx, ht⟩
      obtain ⟨s2, n2, h1, h2, h3⟩ := (exec_split_ok hc).mp hx
      rw [hp2] at h2
      cases h2
      obtain ⟨effs', h4, h5⟩ := post_need false need hpf.inv hk h3
      exact ⟨effs', (exec_split_ok hc).mpr ⟨s1', need, by rw [← hpre, h1], hpa, h4⟩, h5.trans ht⟩

/-- The hypotheses of C73 are met with rewards pending, for a call that pays. -/
example :
    let w := run demoCfg demo [.epochs 1, .reward (10 ^ 20)]
    Reachable demoCfg w ∧ "carol.near" ≠ demoCfg.self ∧ w.locked + (w.liquid + 0) < two128 ∧
    (step demoCfg w (.call "carol.near" 0 .ping)).pool.totalStakedBalance ≠
      w.pool.totalStakedBalance ∧
    (exec (mkEnv demoCfg w "bob.near" 0 []) w.pool .withdrawAll).isOk = true :=
  ⟨demo_reachable.run _, by decide +kernel, by decide +kernel, by decide +kernel,
   by decide +kernel⟩

end Verif.StakingPool
