import Verif.StakingPool.Props5

/-!
# Staking pool property C90: which calls are accepted, and what they do to the caller's account
-/

namespace Verif.StakingPool

open Verif

/-- **C90 (unstake).** Once the rewards of the epoch are distributed, `unstake(x)` is accepted exactly for
the positive amounts up to the staked balance that the pool reports for the caller. -/
theorem C90_unstake_iff {cfg : Cfg} {w : World} (h : Reachable cfg w) (hb : Bounded w)
    (he : w.pool.lastEpochHeight = w.epoch) (a : AccountId) (x : Nat) {v : Nat}
    (hv : getAccountStakedBalance w.epoch w.pool a = .ok v) :
    (∃ r, exec (mkEnv cfg w a 0 []) w.pool (.unstake x) = .ok r) ↔ 0 < x ∧ x ≤ v := by
  constructor
  · rintro ⟨⟨p, effs⟩, hx⟩
    obtain ⟨s0, hi⟩ := reachable_inv h
    rw [getStaked_total hi.pool] at hv
    cases hv
    have hp : internalPing (mkEnv cfg w a 0 []) w.pool = .ok (w.pool, false) :=
      internalPing_ok.mpr (.inl ⟨he, rfl, rfl⟩)
    simp only [exec, unstake, bind_ok, notPayable_ok, pure_ok, Prod.exists, Prod.mk.injEq] at hx
    obtain ⟨_, _, s1, b, hp', s2, hu, _⟩ := hx
    rw [hp] at hp'
    cases hp'
    obtain ⟨n, _, _, h1, hT, hn, _, hle, _⟩ := innerUnstake_ok.mp hu
    refine ⟨h1, ?_⟩
    obtain ⟨_, _, hnE, _⟩ := numSharesUp_ok.mp hn
    have hle' : n ≤ (getAcc w.pool a).stakeShares := hle
    show x ≤ w.pool.totalStakedBalance * (getAcc w.pool a).stakeShares / w.pool.totalStakeShares
    rw [Nat.le_div_iff_mul_le hi.pool.S_pos]
    have h2 : w.pool.totalStakeShares * x ≤ w.pool.totalStakedBalance * n := by
      rw [hnE]
      have := Nat.lt_mul_div_succ (w.pool.totalStakeShares * x + (w.pool.totalStakedBalance - 1)) hT
      rw [Nat.mul_add, Nat.mul_one] at this
      omega
    calc x * w.pool.totalStakeShares = w.pool.totalStakeShares * x := Nat.mul_comm _ _
      _ ≤ w.pool.totalStakedBalance * n := h2
      _ ≤ _ := Nat.mul_le_mul_left _ hle'
  · rintro ⟨h0, hle⟩
    obtain ⟨p, effs, _, _, hx, _⟩ := unstake_works h hb a hv h0 hle
    exact ⟨_, hx⟩

/-- Alice can unstake exactly up to her reported balance. -/
example : Reachable demoCfg demo ∧ Bounded demo ∧ demo.pool.lastEpochHeight = demo.epoch ∧
    getAccountStakedBalance demo.epoch demo.pool "alice.near" = .ok 10000175000000000004362657 ∧
    (exec (mkEnv demoCfg demo "alice.near" 0 []) demo.pool (.unstake 10000175000000000004362657)).isOk = true ∧
    (exec (mkEnv demoCfg demo "alice.near" 0 []) demo.pool (.unstake 10000175000000000004362658)).isOk = false :=
  ⟨demo_reachable, demo_bounded, by decide +kernel, by decide +kernel, by decide +kernel,
   by decide +kernel⟩

/-- **C90 (deposits).** A deposit is taken by `deposit` and `deposit_and_stake` only; every other call with
tokens attached is rejected (so that the runtime returns them). -/
theorem C90_only_deposits_take_tokens {cfg : Cfg} {w : World} {a : AccountId} {d : Nat} (hd : 0 < d)
    {rs : List Bool} {c : Call} {r : Pool × List Eff}
    (hx : exec (mkEnv cfg w a d rs) w.pool c = .ok r) : c = .deposit ∨ c = .depositAndStake := by
  obtain ⟨p, effs⟩ := r
  obtain ⟨s1, _, hb⟩ := exec_cases hx
  cases hb with
  | deposit => exact .inl rfl
  | depositStake => exact .inr rfl
  | idle _ h0 => simp only [mkEnv] at h0; omega
  | admin _ _ _ _ h0 => simp only [mkEnv] at h0; omega
  | withdraw _ h0 => simp only [mkEnv] at h0; omega
  | stake _ h0 => simp only [mkEnv] at h0; omega
  | unstake _ h0 => simp only [mkEnv] at h0; omega

example : (exec (mkEnv demoCfg demo "bob.near" 7 []) demo.pool .deposit).isOk = true ∧
    (exec (mkEnv demoCfg demo "bob.near" 7 []) demo.pool .depositAndStake).isOk = true ∧
    (exec (mkEnv demoCfg demo "bob.near" 7 []) demo.pool .ping).isOk = false := by
  refine ⟨by decide +kernel, by decide +kernel, by decide +kernel⟩

/-- An account without balances has no waiting time. -/
theorem empty_epoch {s0 : Nat} {s : Pool} (hi : PoolInv s0 s) {a : AccountId}
    (h1 : (getAcc s a).unstaked = 0) (h2 : (getAcc s a).stakeShares = 0) :
    (getAcc s a).unstakedAvailableEpoch = 0 := by
  unfold getAcc at h1 h2 ⊢
  cases hg : s.accounts.get a with
  | none => rfl
  | some acc =>
    rw [hg] at h1 h2
    have := hi.nonempty a acc hg
    simp only [Option.getD_some] at h1 h2
    omega

theorem samePing {cfg : Cfg} {w : World} {a : AccountId} {d : Nat} {rs : List Bool} {s1 : Pool} {b : Bool}
    (hp : internalPing (mkEnv cfg w a d rs) w.pool = .ok (s1, b))
    (he : w.pool.lastEpochHeight = w.epoch) : s1 = w.pool := by
  rcases internalPing_ok.mp hp with ⟨_, h, _⟩ | ⟨h, _⟩
  · exact h
  · exact absurd he h

/-- **C90 (deposit, exactly).** `deposit` with `d` attached adds exactly `d` to the unstaked balance of the
caller and leaves the waiting time as it is; once the rewards of the epoch are distributed it also leaves
the staked balance as it is. -/
theorem C90_deposit_exact {cfg : Cfg} {w : World} (h : Reachable cfg w) {a : AccountId} {d : Nat}
    {p : Pool} {effs : List Eff} (hx : exec (mkEnv cfg w a d []) w.pool .deposit = .ok (p, effs))
    {acc acc' : HumanAccount} (hacc : getAccount w.epoch w.pool a = .ok acc)
    (hacc' : getAccount w.epoch p a = .ok acc') :
    acc'.unstakedBalance = acc.unstakedBalance + d ∧ acc'.canWithdraw = acc.canWithdraw ∧
    acc.stakedBalance ≤ acc'.stakedBalance ∧
    (w.pool.lastEpochHeight = w.epoch → acc'.stakedBalance = acc.stakedBalance) := by
  obtain ⟨s0, hi⟩ := reachable_inv h
  simp only [exec, deposit, bind_ok, pure_ok, Prod.exists, Prod.mk.injEq] at hx
  obtain ⟨s1, b, hp, s2, x, hd, _, _, rfl, _⟩ := hx
  have hpf := ping_facts hi.pool hp
  obtain ⟨hf, _, hT, hS, _, _, ha⟩ := deposit_facts hpf.inv hd
  rw [getAccount_total hi.pool] at hacc
  rw [getAccount_total hf.inv] at hacc'
  cases hacc; cases hacc'
  have ha' : getAcc s2 a = norm ⟨(getAcc s1 a).unstaked + d, (getAcc s1 a).stakeShares,
    (getAcc s1 a).unstakedAvailableEpoch⟩ := ha
  have hu : (getAcc s2 a).unstaked = (getAcc s1 a).unstaked + d := by rw [ha', norm_unstaked]
  have hsh : (getAcc s2 a).stakeShares = (getAcc s1 a).stakeShares := by rw [ha', norm_shares]
  have hep : (getAcc s2 a).unstakedAvailableEpoch = (getAcc s1 a).unstakedAvailableEpoch := by
    by_cases h0 : (getAcc s2 a).unstaked = 0 ∧ (getAcc s2 a).stakeShares = 0
    · rw [empty_epoch hf.inv h0.1 h0.2, empty_epoch hpf.inv (by omega) (by omega)]
    · rw [ha', norm_epoch]; simp only; omega
  refine ⟨by simp only [hu, hpf.unstaked a], by simp only [hep, ping_epochs hp a], ?_, ?_⟩
  · exact stakedOf_mono hi.pool hf.inv (hpf.price.trans hpf.inv.S_pos hf.price)
      (by rw [hsh]; exact hpf.shares a)
  · intro he
    have := samePing hp he
    subst this
    simp only [stakedOf, hT, hS, hsh]

/-- **C90 (withdraw, exactly).** A withdrawal of `x` takes exactly `x` from the unstaked balance of the
caller; once the rewards of the epoch are distributed it leaves the staked balance as it is. -/
theorem C90_withdraw_exact {cfg : Cfg} {w : World} (h : Reachable cfg w) {a : AccountId} {d x : Nat}
    {p : Pool} {effs : List Eff} (hx : exec (mkEnv cfg w a d []) w.pool (.withdraw x) = .ok (p, effs))
    {acc acc' : HumanAccount} (hacc : getAccount w.epoch w.pool a = .ok acc)
    (hacc' : getAccount w.epoch p a = .ok acc') :
    acc'.unstakedBalance + x = acc.unstakedBalance ∧ acc'.canWithdraw = true ∧
    acc.stakedBalance ≤ acc'.stakedBalance ∧
    (w.pool.lastEpochHeight = w.epoch → acc'.stakedBalance = acc.stakedBalance) := by
  obtain ⟨s0, hi⟩ := reachable_inv h
  simp only [exec, withdraw, bind_ok, notPayable_ok, pure_ok, Prod.exists, Prod.mk.injEq] at hx
  obtain ⟨_, _, s1, b, hp, s2, effs1, hw, _, _, rfl, _⟩ := hx
  have hpf := ping_facts hi.pool hp
  obtain ⟨hf, _, hT, hS, _, _, _, hle, _, hav, ha⟩ := withdraw_facts hpf.inv hw
  rw [getAccount_total hi.pool] at hacc
  rw [getAccount_total hf.inv] at hacc'
  cases hacc; cases hacc'
  have ha' : getAcc s2 a = norm ⟨(getAcc s1 a).unstaked - x, (getAcc s1 a).stakeShares,
    (getAcc s1 a).unstakedAvailableEpoch⟩ := ha
  have hle' : x ≤ (getAcc s1 a).unstaked := hle
  have hav' : (getAcc s1 a).unstakedAvailableEpoch ≤ w.epoch := hav
  have hu : (getAcc s2 a).unstaked = (getAcc s1 a).unstaked - x := by rw [ha', norm_unstaked]
  have hsh : (getAcc s2 a).stakeShares = (getAcc s1 a).stakeShares := by rw [ha', norm_shares]
  have hep : (getAcc s2 a).unstakedAvailableEpoch ≤ (getAcc s1 a).unstakedAvailableEpoch := by
    rw [ha']; exact norm_epoch_le _
  have hpu := hpf.unstaked a
  refine ⟨by simp only [hu]; omega, by simp only [decide_eq_true_eq]; omega, ?_, ?_⟩
  · exact stakedOf_mono hi.pool hf.inv (hpf.price.trans hpf.inv.S_pos hf.price)
      (by rw [hsh]; exact hpf.shares a)
  · intro he
    have := samePing hp he
    subst this
    simp only [stakedOf, hT, hS, hsh]

/-- Bob deposits 7 and withdraws 2. -/
example : Reachable demoCfg demo ∧ demo.pool.lastEpochHeight = demo.epoch ∧
    getAccount demo.epoch demo.pool "bob.near" = .ok ⟨"bob.near", 5, 0, true⟩ ∧
    ((exec (mkEnv demoCfg demo "bob.near" 7 []) demo.pool .deposit).bind
      (fun r => getAccount demo.epoch r.1 "bob.near")) = .ok ⟨"bob.near", 12, 0, true⟩ ∧
    ((exec (mkEnv demoCfg demo "bob.near" 0 []) demo.pool (.withdraw 2)).bind
      (fun r => getAccount demo.epoch r.1 "bob.near")) = .ok ⟨"bob.near", 3, 0, true⟩ :=
  ⟨demo_reachable, by decide +kernel, by decide +kernel, by decide +kernel, by decide +kernel⟩

/-- **C90 (administration).** Exactly when an administrative call is accepted: the caller is the owner, no
tokens are attached, and: a new key is valid unless staking is paused; a new fee is a fraction of `u32`
numbers with a positive denominator, at most one; the poll of a vote is a valid account id; staking is
paused only when it is not, and resumed only when it is paused, with a valid key. -/
theorem C90_admin_iff {cfg : Cfg} {w : World} (h : Reachable cfg w) (hb : Bounded w) (a : AccountId)
    (d : Nat) :
    (∀ k, (∃ r, exec (mkEnv cfg w a d []) w.pool (.updateStakingKey k) = .ok r) ↔
      a = getOwnerId w.pool ∧ d = 0 ∧ (isStakingPaused w.pool = true ∨ cfg.validPublicKey k = true)) ∧
    (∀ f, (∃ r, exec (mkEnv cfg w a d []) w.pool (.updateRewardFeeFraction f) = .ok r) ↔
      a = getOwnerId w.pool ∧ d = 0 ∧ 0 < f.denominator ∧ f.numerator ≤ f.denominator ∧
        f.denominator < 2 ^ 32) ∧
    (∀ v b, (∃ r, exec (mkEnv cfg w a d []) w.pool (.vote v b) = .ok r) ↔
      a = getOwnerId w.pool ∧ d = 0 ∧ cfg.validAccountId v = true) ∧
    ((∃ r, exec (mkEnv cfg w a d []) w.pool .pauseStaking = .ok r) ↔
      a = getOwnerId w.pool ∧ d = 0 ∧ isStakingPaused w.pool = false) ∧
    ((∃ r, exec (mkEnv cfg w a d []) w.pool .resumeStaking = .ok r) ↔
      a = getOwnerId w.pool ∧ d = 0 ∧ isStakingPaused w.pool = true ∧
        cfg.validPublicKey (getStakingKey w.pool) = true) := by
  obtain ⟨s0, hi⟩ := reachable_inv h
  obtain ⟨s1, b, hp⟩ := ping_total hi hb a 0 [] (by norm_num)
  obtain ⟨hpf, hfit, hkey⟩ := ping_fits hi hb hp
  have hpz : ∀ {d}, d = 0 → internalPing (mkEnv cfg w a d []) w.pool = .ok (s1, b) := by
    rintro d rfl; exact hp
  refine ⟨fun k => ?_, fun f => ?_, fun v bb => ?_, ?_, ?_⟩
  · simp only [exec, updateStakingKey, bind_ok, notPayable_ok, assertOwner_ok, pure_ok, Prod.exists,
      Prod.mk.injEq]
    constructor
    · rintro ⟨_, _, _, h0, _, ho, s2, b2, h1, effs, h2, _⟩
      have hd : d = 0 := h0
      rw [hpz hd] at h1
      cases h1
      refine ⟨ho, hd, ?_⟩
      rcases internalRestake_ok.mp h2 with ⟨g, _⟩ | ⟨_, g, _⟩
      · exact .inl (hpf.paused.symm.trans g)
      · exact .inr g
    · rintro ⟨ho, rfl, hk⟩
      obtain ⟨effs, he⟩ := restake_total (e := mkEnv cfg w a 0 [])
        (s := { s1 with stakePublicKey := k }) (hk.imp (fun g => hpf.paused.trans g) id)
      exact ⟨_, _, (), rfl, (), ho, s1, b, hp, effs, he, rfl, rfl⟩
  · simp only [exec, updateRewardFeeFraction, bind_ok, notPayable_ok, assertOwner_ok, Fee.decode_ok,
      Fee.assertValid_ok, pure_ok, Prod.exists, Prod.mk.injEq]
    constructor
    · rintro ⟨_, _, _, h0, _, h32, _, ho, _, hv, _⟩
      exact ⟨ho, h0, by omega, hv.2, h32.2⟩
    · rintro ⟨ho, rfl, g1, g2, g3⟩
      have hk2 : ({ s1 with rewardFee := f } : Pool).paused = true ∨
          (mkEnv cfg w a 0 []).validPublicKey ({ s1 with rewardFee := f } : Pool).stakePublicKey = true :=
        hkey
      obtain ⟨effs, he⟩ := restakeIf_total b hk2
      have e32 : two32 = 2 ^ 32 := rfl
      exact ⟨_, _, (), rfl, (), ⟨by omega, g3⟩, (), ho, (), ⟨by omega, g2⟩, s1, b, hp, effs, he, rfl, rfl⟩
  · simp only [exec, vote, bind_ok, notPayable_ok, assertOwner_ok, require_ok, pure_ok, Prod.exists,
      Prod.mk.injEq]
    constructor
    · rintro ⟨_, _, _, h0, _, ho, _, hv, _⟩
      exact ⟨ho, h0, hv⟩
    · rintro ⟨ho, rfl, hv⟩
      exact ⟨_, _, (), rfl, (), ho, (), hv, rfl, rfl⟩
  · simp only [exec, pauseStaking, bind_ok, notPayable_ok, assertOwner_ok, require_ok, pure_ok,
      Prod.exists, Prod.mk.injEq]
    constructor
    · rintro ⟨_, _, _, h0, _, ho, _, hv, _⟩
      exact ⟨ho, h0, hv⟩
    · rintro ⟨ho, rfl, hv⟩
      have hv' : w.pool.paused = false := hv
      have hk : cfg.validPublicKey s1.stakePublicKey = true := by
        rcases hkey with g | g
        · rw [hpf.paused, hv'] at g; cases g
        · exact g
      exact ⟨_, _, (), rfl, (), ho, (), hv, s1, b, hp, (), hk, rfl, rfl⟩
  · simp only [exec, resumeStaking, bind_ok, notPayable_ok, assertOwner_ok, require_ok, pure_ok,
      Prod.exists, Prod.mk.injEq]
    constructor
    · rintro ⟨_, _, _, h0, _, ho, _, hv, s2, b2, h1, effs, h2, _⟩
      have hd : d = 0 := h0
      rw [hpz hd] at h1
      cases h1
      refine ⟨ho, hd, hv, ?_⟩
      rcases internalRestake_ok.mp h2 with ⟨g, _⟩ | ⟨_, g, _⟩
      · exact absurd g Bool.false_ne_true
      · exact (congrArg cfg.validPublicKey hpf.key).symm.trans g
    · rintro ⟨ho, rfl, hv, hk⟩
      have hk2 : ({ s1 with paused := false } : Pool).paused = true ∨
          (mkEnv cfg w a 0 []).validPublicKey ({ s1 with paused := false } : Pool).stakePublicKey = true :=
        .inr ((congrArg cfg.validPublicKey hpf.key).trans hk)
      obtain ⟨effs, he⟩ := restake_total hk2
      exact ⟨_, _, (), rfl, (), ho, (), hv, s1, b, hp, effs, he, rfl, rfl⟩

/-- The owner can pause and change the fee to one half, but not to three halves or to an invalid key. -/
example : Reachable demoCfg demo ∧ Bounded demo ∧ getOwnerId demo.pool = "owner.near" ∧
    (exec (mkEnv demoCfg demo "owner.near" 0 []) demo.pool .pauseStaking).isOk = true ∧
    (exec (mkEnv demoCfg demo "owner.near" 0 []) demo.pool .resumeStaking).isOk = false ∧
    (exec (mkEnv demoCfg demo "owner.near" 0 []) demo.pool (.updateRewardFeeFraction ⟨1, 2⟩)).isOk = true ∧
    (exec (mkEnv demoCfg demo "owner.near" 0 []) demo.pool (.updateRewardFeeFraction ⟨3, 2⟩)).isOk = false ∧
    (exec (mkEnv demoCfg demo "owner.near" 0 []) demo.pool (.updateStakingKey "bad")).isOk = false :=
  ⟨demo_reachable, demo_bounded, by decide +kernel, by decide +kernel, by decide +kernel, by decide +kernel,
   by decide +kernel, by decide +kernel⟩

end Verif.StakingPool
