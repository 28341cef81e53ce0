import Verif.StakingPool.Props1

/-!
# Staking pool properties C04, C05, C07, C17, C59: calls succeed exactly when they should
-/

namespace Verif.StakingPool

open Verif

/-- Unstaking up to the reported balance works and credits at least the requested amount. -/
theorem unstake_works {cfg : Cfg} {w : World} (h : Reachable cfg w) (hb : Bounded w)
    (a : AccountId) {X x : Nat} (hx : getAccountStakedBalance w.epoch w.pool a = .ok x)
    (hX0 : 0 < X) (hX : X ≤ x) :
    ∃ p effs u u', exec (mkEnv cfg w a 0 []) w.pool (.unstake X) = .ok (p, effs) ∧
      getAccountUnstakedBalance w.epoch w.pool a = .ok u ∧
      getAccountUnstakedBalance w.epoch p a = .ok u' ∧ u + X ≤ u' := by
  obtain ⟨s0, hi⟩ := reachable_inv h
  rw [getStaked_total hi.pool] at hx
  cases hx
  obtain ⟨s1, b, hp⟩ := ping_total hi hb a 0 [] (by norm_num)
  obtain ⟨hpf, hfit, hkey⟩ := ping_fits hi hb hp
  have hst := stakedOf_mono hi.pool hpf.inv hpf.price (hpf.shares a)
  have hep := hb.epoch
  obtain ⟨s2, hu⟩ := unstake_total (e := mkEnv cfg w a 0 []) (x := X) hpf.inv hfit
    (by simp only [mkEnv]; omega) hX0 (Nat.le_trans hX hst)
  obtain ⟨uf, _, n, rcv, dn, _, _, _, hnE, hrE, _, _, _, _, _, hacc⟩ := unstake_facts hpf.inv hu
  have hk2 : s2.paused = true ∨ (mkEnv cfg w a 0 []).validPublicKey s2.stakePublicKey = true := by
    rw [uf.paused, uf.key]; exact hkey
  obtain ⟨effs, hre⟩ := restake_total hk2
  refine ⟨s2, effs, _, _, ?_, getUnstaked_total hi.pool _ a, getUnstaked_total uf.inv _ a, ?_⟩
  · simp only [exec, unstake, bind_ok, notPayable_ok, pure_ok, Prod.exists, Prod.mk.injEq]
    exact ⟨(), rfl, s1, b, hp, s2, hu, effs, hre, rfl, rfl⟩
  · have h1 : (getAcc s2 a).unstaked = (getAcc s1 a).unstaked + rcv :=
      congrArg Account.unstaked hacc
    have h2 := hpf.unstaked a
    have h3 : X ≤ rcv := by
      rw [hrE, hnE]; exact Arith.receive_ge hpf.inv.T_pos hpf.inv.S_pos
    omega

/-- **C04.** If a stake call by `a` (`stake`, `stake_all`, or `deposit_and_stake` with deposit `d`)
charged `X` (the unstaked balance went from `u` to `u'` with `X = u + d - u'`), then after every later
history without calls by `a`, `unstake(X)` by `a` succeeds and credits at least `X`. -/
theorem C04_staked_can_be_unstaked {cfg : Cfg} {w : World} (h : Reachable cfg w) {a : AccountId}
    (ha : a ≠ cfg.self) {d : Nat} {c : Call}
    (hc : c = .depositAndStake ∨ c = .stakeAll ∨ ∃ amount, c = .stake amount)
    {p : Pool} {effs : List Eff} (hx : exec (mkEnv cfg w a d []) w.pool c = .ok (p, effs))
    {u u' : Nat} (hu : getAccountUnstakedBalance w.epoch w.pool a = .ok u)
    (hu' : getAccountUnstakedBalance w.epoch p a = .ok u')
    (evs : List Ev) (hn : ∀ ev ∈ evs, ¬ ev.isCallBy a)
    (hb : Bounded (run cfg (step cfg w (.call a d c)) evs)) :
    u' < u + d ∧
    ∃ p2 effs2 v v',
      exec (mkEnv cfg (run cfg (step cfg w (.call a d c)) evs) a 0 [])
        (run cfg (step cfg w (.call a d c)) evs).pool (.unstake (u + d - u')) = .ok (p2, effs2) ∧
      getAccountUnstakedBalance (run cfg (step cfg w (.call a d c)) evs).epoch
        (run cfg (step cfg w (.call a d c)) evs).pool a = .ok v ∧
      getAccountUnstakedBalance (run cfg (step cfg w (.call a d c)) evs).epoch p2 a = .ok v' ∧
      v + (u + d - u') ≤ v' := by
  obtain ⟨s0, hi⟩ := reachable_inv h
  -- the charge
  have hstep : step cfg w (.call a d c) = commit w a d c p effs := by
    simp only [step, if_neg ha, doCall, hx]
  have hcf := call_facts hi.pool hx
  obtain ⟨s1, hp, hbody⟩ := exec_cases hx
  have hpf := pingRel_facts hi.pool hp
  rw [getUnstaked_total hi.pool] at hu
  rw [getUnstaked_total hcf.inv] at hu'
  cases hu; cases hu'
  have hstaked : ∀ {s2 s3 : Pool} {x : Nat}, PoolInv s0 s2 →
      internalStake (mkEnv cfg w a d []) s2 x = .ok s3 →
      (getAcc s3 a).unstaked < (getAcc s2 a).unstaked ∧
      (getAcc s2 a).unstaked - (getAcc s3 a).unstaked ≤ stakedOf s3 a := by
    intro s2 s3 x hi2 hs
    obtain ⟨sf, _, n, ch, up, _, _, hc0, hnE, hcE, _, hcle, _, _, _, hacc⟩ := stake_facts hi2 hs
    have h1 : (getAcc s3 a).unstaked = (getAcc s2 a).unstaked - ch :=
      congrArg Account.unstaked hacc
    have h3 : ch ≤ (getAcc s2 a).unstaked := hcle
    have h4 : ch ≤ stakedOf s3 a := by
      have hsh : (getAcc s3 a).stakeShares = (getAcc s2 a).stakeShares + n :=
        congrArg Account.stakeShares hacc
      unfold stakedOf
      rw [hsh, hcE]
      refine Nat.le_trans (Arith.view_mono hi2.S_pos sf.inv.S_pos sf.price) ?_
      exact Nat.div_le_div_right (Nat.mul_le_mul_left _ (Nat.le_add_left _ _))
    omega
  have hcharge : (getAcc p a).unstaked < (getAcc w.pool a).unstaked + d ∧
      (getAcc w.pool a).unstaked + d - (getAcc p a).unstaked ≤ stakedOf p a := by
    have h2 := hpf.unstaked a
    cases hbody with
    | idle hr => rcases hc with rfl | rfl | ⟨_, rfl⟩ <;> simp [Call.isRounding] at hr
    | admin _ _ _ hr => rcases hc with rfl | rfl | ⟨_, rfl⟩ <;> simp [Call.isRounding] at hr
    | deposit => rcases hc with hc | hc | ⟨_, hc⟩ <;> cases hc
    | depositStake hd hs =>
      obtain ⟨of, _, _, _, _, _, hac⟩ := deposit_facts hpf.inv hd
      have h1 := hstaked of.inv hs
      have h3 := congrArg Account.unstaked hac
      rw [norm_unstaked] at h3
      simp only [mkEnv] at h3
      omega
    | withdraw hw =>
      rcases hc with rfl | rfl | ⟨_, rfl⟩ <;> rcases hw with hw | ⟨hw, _⟩ <;> cases hw
    | unstake hw =>
      rcases hc with rfl | rfl | ⟨_, rfl⟩ <;> rcases hw with hw | ⟨hw, _⟩ <;> cases hw
    | stake _ hd hs =>
      have h1 := hstaked hpf.inv hs
      simp only [mkEnv] at hd
      omega
  refine ⟨hcharge.1, ?_⟩
  have hr1 : Reachable cfg (step cfg w (.call a d c)) := h.run [.call a d c]
  obtain ⟨x, y, hxv, hyv, hxy⟩ := C01_staked_balance_never_decreases hr1 a evs hn
  refine unstake_works (hr1.run evs) hb a hyv (by omega) ?_
  have hpool : (step cfg w (.call a d c)).pool = p := by rw [hstep]; rfl
  rw [hpool, getStaked_total hcf.inv] at hxv
  cases hxv
  omega

/-- Bob deposits and stakes an odd amount; others act; the hypotheses of C04 are met. -/
example :
    let w := run demoCfg demo [.call "bob.near" 1000003 .deposit]
    let evs := [Ev.epochs 1, .reward 1000, .call "alice.near" 0 .unstakeAll]
    Reachable demoCfg w ∧ "bob.near" ≠ demoCfg.self ∧
    (exec (mkEnv demoCfg w "bob.near" 0 []) w.pool (.stake 999)).isOk = true ∧
    (exec (mkEnv demoCfg w "bob.near" 77 []) w.pool .depositAndStake).isOk = true ∧
    (∀ ev ∈ evs, ¬ ev.isCallBy "bob.near") ∧
    Bounded (run demoCfg (step demoCfg w (.call "bob.near" 0 (.stake 999))) evs) := by
  refine ⟨demo_reachable.run _, by decide +kernel, by decide +kernel, by decide +kernel,
    by simp [Ev.isCallBy], ?_⟩
  refine ⟨?_, ?_, ?_⟩ <;> decide +kernel

/-- Having a positive staked balance is the same as having shares. -/
theorem stakedOf_pos {s0 : Nat} {s : Pool} (hi : PoolInv s0 s) (a : AccountId) :
    0 < stakedOf s a ↔ 0 < (getAcc s a).stakeShares := by
  unfold stakedOf
  constructor
  · intro h
    rcases Nat.eq_zero_or_pos (getAcc s a).stakeShares with h0 | h0
    · rw [h0] at h; simp at h
    · exact h0
  · intro h
    apply Nat.div_pos _ hi.S_pos
    calc s.totalStakeShares ≤ s.totalStakedBalance := hi.price
      _ = s.totalStakedBalance * 1 := by omega
      _ ≤ s.totalStakedBalance * (getAcc s a).stakeShares := Nat.mul_le_mul_left _ h

theorem unstakeAll_inv {cfg : Cfg} {w : World} {s0 : Nat} (hi : WInv cfg s0 w) (hb : Bounded w)
    (a : AccountId) {x : Nat} (hx : getAccountStakedBalance w.epoch w.pool a = .ok x)
    (hx0 : 0 < x) :
    ∃ p effs u u', exec (mkEnv cfg w a 0 []) w.pool .unstakeAll = .ok (p, effs) ∧
      (getAcc p a).stakeShares = 0 ∧ getAccountStakedBalance w.epoch p a = .ok 0 ∧
      getAccountUnstakedBalance w.epoch w.pool a = .ok u ∧
      getAccountUnstakedBalance w.epoch p a = .ok u' ∧ u + x ≤ u' := by
  rw [getStaked_total hi.pool] at hx
  cases hx
  obtain ⟨s1, b, hp⟩ := ping_total hi hb a 0 [] (by norm_num)
  obtain ⟨hpf, hfit, hkey⟩ := ping_fits hi hb hp
  have hst := stakedOf_mono hi.pool hpf.inv hpf.price (hpf.shares a)
  have hep := hb.epoch
  have hsd := stakedAmountDown_total hpf.inv a
  obtain ⟨s2, hu⟩ := unstake_total (e := mkEnv cfg w a 0 []) (x := stakedOf s1 a) hpf.inv hfit
    (by simp only [mkEnv]; omega) (by omega) (Nat.le_refl _)
  obtain ⟨uf, _, n, rcv, dn, _, _, _, hnE, hrE, _, _, _, _, _, hacc⟩ := unstake_facts hpf.inv hu
  have hk2 : s2.paused = true ∨ (mkEnv cfg w a 0 []).validPublicKey s2.stakePublicKey = true := by
    rw [uf.paused, uf.key]; exact hkey
  obtain ⟨effs, hre⟩ := restake_total hk2
  have hn : n = (getAcc s1 a).stakeShares := by
    rw [hnE]; exact Arith.unstake_all_exact hpf.inv.S_pos hpf.inv.price
  have hz : (getAcc s2 a).stakeShares = 0 := by
    have : (getAcc s2 a).stakeShares = (getAcc s1 a).stakeShares - n :=
      congrArg Account.stakeShares hacc
    omega
  refine ⟨s2, effs, _, _, ?_, hz, ?_, getUnstaked_total hi.pool _ a, getUnstaked_total uf.inv _ a,
    ?_⟩
  · simp only [exec, unstakeAll, bind_ok, notPayable_ok, pure_ok, Prod.exists, Prod.mk.injEq]
    exact ⟨(), rfl, s1, b, hp, _, hsd, s2, hu, effs, hre, rfl, rfl⟩
  · rw [getStaked_total uf.inv]; unfold stakedOf; rw [hz]; simp
  · have h1 : (getAcc s2 a).unstaked = (getAcc s1 a).unstaked + rcv :=
      congrArg Account.unstaked hacc
    have h2 := hpf.unstaked a
    have h3 : stakedOf s1 a ≤ rcv := by
      rw [hrE, hnE]; exact Arith.receive_ge hpf.inv.T_pos hpf.inv.S_pos
    omega

/-- **C05.** For an account with a positive staked balance `unstake_all` succeeds, leaves no share
behind and credits at least the reported staked balance. -/
theorem C05_unstake_all_exact {cfg : Cfg} {w : World} (h : Reachable cfg w) (hb : Bounded w)
    (a : AccountId) {x : Nat} (hx : getAccountStakedBalance w.epoch w.pool a = .ok x)
    (hx0 : 0 < x) :
    ∃ p effs u u', exec (mkEnv cfg w a 0 []) w.pool .unstakeAll = .ok (p, effs) ∧
      (getAcc p a).stakeShares = 0 ∧ getAccountStakedBalance w.epoch p a = .ok 0 ∧
      getAccountUnstakedBalance w.epoch w.pool a = .ok u ∧
      getAccountUnstakedBalance w.epoch p a = .ok u' ∧ u + x ≤ u' := by
  obtain ⟨s0, hi⟩ := reachable_inv h
  exact unstakeAll_inv hi hb a hx hx0

example : Reachable demoCfg demo ∧ Bounded demo ∧
    getAccountStakedBalance demo.epoch demo.pool "alice.near" = .ok 10000175000000000004362657 :=
  ⟨demo_reachable, demo_bounded, by decide +kernel⟩

theorem withdraw_iff_inv {cfg : Cfg} {w : World} {s0 : Nat} (hi : WInv cfg s0 w) (hb : Bounded w)
    (a : AccountId) (x : Nat) {acc : HumanAccount} (hacc : getAccount w.epoch w.pool a = .ok acc) :
    ((∃ p effs, exec (mkEnv cfg w a 0 []) w.pool (.withdraw x) = .ok (p, effs)) ↔
      0 < x ∧ x ≤ acc.unstakedBalance ∧ acc.canWithdraw = true ∧ x ≤ w.liquid) ∧
    ∀ p effs, exec (mkEnv cfg w a 0 []) w.pool (.withdraw x) = .ok (p, effs) →
      (∃ rest, effs = .transfer a x :: rest ∧ NoTransfer rest) ∧
      ∃ u', getAccountUnstakedBalance w.epoch p a = .ok u' ∧ u' + x = acc.unstakedBalance := by
  rw [getAccount_total hi.pool] at hacc
  cases hacc
  simp only [decide_eq_true_eq]
  obtain ⟨s1, b, hp⟩ := ping_total hi hb a 0 [] (by norm_num)
  obtain ⟨hpf, hfit, hkey⟩ := ping_fits hi hb hp
  have hun := hpf.unstaked a
  have heps := ping_epochs hp a
  have key : ∀ p effs, exec (mkEnv cfg w a 0 []) w.pool (.withdraw x) = .ok (p, effs) ↔
      ∃ effs1 effs2, internalWithdraw (mkEnv cfg w a 0 []) s1 x = .ok (p, effs1) ∧
        restakeIf (mkEnv cfg w a 0 []) p b = .ok effs2 ∧ effs = effs1 ++ effs2 := by
    intro p effs
    simp only [exec, withdraw, bind_ok, notPayable_ok, pure_ok, Prod.exists, Prod.mk.injEq]
    constructor
    · rintro ⟨_, _, s1', b', hp', s2, effs1, hw, effs2, hre, rfl, rfl⟩
      rw [hp] at hp'
      cases hp'
      exact ⟨effs1, effs2, hw, hre, rfl⟩
    · rintro ⟨effs1, effs2, hw, hre, rfl⟩
      exact ⟨(), rfl, s1, b, hp, p, effs1, hw, effs2, hre, rfl, rfl⟩
  refine ⟨⟨?_, ?_⟩, ?_⟩
  · rintro ⟨p, effs, hx⟩
    obtain ⟨effs1, effs2, hw, _, _⟩ := (key p effs).mp hx
    rw [internalWithdraw_ok] at hw
    obtain ⟨h1, h2, h3, h4, _⟩ := hw
    simp only [mkEnv] at h2 h3 h4
    exact ⟨h1, by omega, by omega, by omega⟩
  · rintro ⟨h1, h2, h3, h4⟩
    have hcl := hfit.claims
    have hle := unstaked_le_sum s1 a
    have hw := internalWithdraw_ok (e := mkEnv cfg w a 0 []) (s := s1) (x := x)
      (effs := [.transfer a x]) (s' := _) |>.mpr
      ⟨h1, by simp only [mkEnv]; omega, by simp only [mkEnv]; omega, by simp only [mkEnv]; omega,
        by omega, rfl, rfl⟩
    have wf := (withdraw_facts hpf.inv hw).1
    obtain ⟨effs2, hre⟩ := restakeIf_total (e := mkEnv cfg w a 0 []) b
      (by rw [wf.paused, wf.key]; exact hkey)
    exact ⟨_, _, (key _ _).mpr ⟨_, _, hw, hre, rfl⟩⟩
  · intro p effs hx
    obtain ⟨effs1, effs2, hw, hre, rfl⟩ := (key p effs).mp hx
    obtain ⟨wf, he, _, _, _, _, _, hle, _, _, hac⟩ := withdraw_facts hpf.inv hw
    subst he
    refine ⟨⟨effs2, rfl, restakeIf_noTransfer hre⟩, _, getUnstaked_total wf.inv _ a, ?_⟩
    have h1 : (getAcc p a).unstaked = (getAcc s1 a).unstaked - x := by
      have := congrArg Account.unstaked hac
      rw [norm_unstaked] at this
      exact this
    have h2 : x ≤ (getAcc s1 a).unstaked := hle
    omega

/-- **C07.** A withdrawal of `x` succeeds iff `0 < x`, `x` is at most the caller's reported unstaked
balance, the reported lock is over and the account holds `x` liquid tokens; it then emits exactly one
transfer, of `x` to the caller, and lowers the caller's unstaked balance by `x`. -/
theorem C07_withdraw_iff {cfg : Cfg} {w : World} (h : Reachable cfg w) (hb : Bounded w)
    (a : AccountId) (x : Nat) {acc : HumanAccount} (hacc : getAccount w.epoch w.pool a = .ok acc) :
    ((∃ p effs, exec (mkEnv cfg w a 0 []) w.pool (.withdraw x) = .ok (p, effs)) ↔
      0 < x ∧ x ≤ acc.unstakedBalance ∧ acc.canWithdraw = true ∧ x ≤ w.liquid) ∧
    ∀ p effs, exec (mkEnv cfg w a 0 []) w.pool (.withdraw x) = .ok (p, effs) →
      (∃ rest, effs = .transfer a x :: rest ∧ NoTransfer rest) ∧
      ∃ u', getAccountUnstakedBalance w.epoch p a = .ok u' ∧ u' + x = acc.unstakedBalance := by
  obtain ⟨s0, hi⟩ := reachable_inv h
  exact withdraw_iff_inv hi hb a x hacc

/-- The hypotheses of C07 hold and both sides of the equivalence occur: Bob can withdraw 5, Alice
cannot withdraw yet. -/
example : Reachable demoCfg demo ∧ Bounded demo ∧
    (exec (mkEnv demoCfg demo "bob.near" 0 []) demo.pool (.withdraw 5)).isOk = true ∧
    (exec (mkEnv demoCfg demo "bob.near" 0 []) demo.pool (.withdraw 6)).isOk = false ∧
    (exec (mkEnv demoCfg demo "alice.near" 0 []) demo.pool (.withdraw 5)).isOk = false :=
  ⟨demo_reachable, demo_bounded, by decide +kernel, by decide +kernel, by decide +kernel⟩

theorem ping_deposit_inv {cfg : Cfg} {w : World} {s0 : Nat} (hi : WInv cfg s0 w)
    (hb : Bounded w) (a : AccountId) (d : Nat) (hd : d < 2 ^ 120) :
    (∃ r, exec (mkEnv cfg w a 0 []) w.pool .ping = .ok r) ∧
    (∃ r, exec (mkEnv cfg w a d []) w.pool .deposit = .ok r) := by
  constructor
  · obtain ⟨s1, b, hp⟩ := ping_total hi hb a 0 [] (by norm_num)
    obtain ⟨hpf, hfit, hkey⟩ := ping_fits hi hb hp
    obtain ⟨effs, hre⟩ := restakeIf_total (e := mkEnv cfg w a 0 []) b hkey
    refine ⟨(s1, effs), ?_⟩
    simp only [exec, ping, bind_ok, notPayable_ok, pure_ok, Prod.exists, Prod.mk.injEq]
    exact ⟨(), rfl, s1, b, hp, effs, hre, rfl, rfl⟩
  · obtain ⟨s1, b, hp⟩ := ping_total hi hb a d [] hd
    obtain ⟨hpf, hfit, hkey⟩ := ping_fits hi hb hp
    obtain ⟨s2, x, hdp⟩ := deposit_total (e := mkEnv cfg w a d []) hfit hd
    have of := (deposit_facts hpf.inv hdp).1
    obtain ⟨effs, hre⟩ := restakeIf_total (e := mkEnv cfg w a d []) b
      (by rw [of.paused, of.key]; exact hkey)
    refine ⟨(s2, effs), ?_⟩
    simp only [exec, deposit, bind_ok, pure_ok, Prod.exists, Prod.mk.injEq]
    exact ⟨s1, b, hp, s2, x, hdp, effs, hre, rfl, rfl⟩

/-- **C17.** Within the token supply, `ping` and `deposit` never panic, for any caller, in any
reachable state. -/
theorem C17_ping_and_deposit_never_panic {cfg : Cfg} {w : World} (h : Reachable cfg w)
    (hb : Bounded w) (a : AccountId) (d : Nat) (hd : d < 2 ^ 120) :
    (∃ r, exec (mkEnv cfg w a 0 []) w.pool .ping = .ok r) ∧
    (∃ r, exec (mkEnv cfg w a d []) w.pool .deposit = .ok r) := by
  obtain ⟨s0, hi⟩ := reachable_inv h
  exact ping_deposit_inv hi hb a d hd

example : Reachable demoCfg demo ∧ Bounded demo := ⟨demo_reachable, demo_bounded⟩

/-- **C59.** Staking works whenever it can buy a share: `stake(x)` by `a` succeeds if `x` is at most
the unstaked balance of `a` and at least the price of one share rounded up (price after the reward
distribution of this call). For a pool that already distributed this epoch the condition
`totalStaked <= totalShares * x` is also necessary. -/
theorem C59_stake_works {cfg : Cfg} {w : World} (h : Reachable cfg w) (hb : Bounded w)
    (a : AccountId) (x u : Nat) (hu : getAccountUnstakedBalance w.epoch w.pool a = .ok u)
    (hx : x ≤ u) (he : w.pool.lastEpochHeight = w.epoch) :
    (∃ r, exec (mkEnv cfg w a 0 []) w.pool (.stake x) = .ok r) ↔
      w.pool.totalStakedBalance ≤ w.pool.totalStakeShares * x := by
  obtain ⟨s0, hi⟩ := reachable_inv h
  rw [getUnstaked_total hi.pool] at hu
  cases hu
  have hp : internalPing (mkEnv cfg w a 0 []) w.pool = .ok (w.pool, false) :=
    internalPing_ok.mpr (.inl ⟨he, rfl, rfl⟩)
  obtain ⟨hpf, hfit, hkey⟩ := ping_fits hi hb hp
  constructor
  · rintro ⟨⟨p, effs⟩, hex⟩
    simp only [exec, stake, bind_ok, notPayable_ok, pure_ok, Prod.exists, Prod.mk.injEq] at hex
    obtain ⟨_, _, s1, b, hp', s2, hs, _⟩ := hex
    rw [hp] at hp'
    cases hp'
    obtain ⟨_, _, n, _, _, _, hn0, _, hnE, _⟩ := stake_facts hi.pool hs
    by_contra hlt
    rw [Nat.div_eq_of_lt (by omega)] at hnE
    omega
  · intro hpr
    obtain ⟨s2, hs⟩ := stake_total (e := mkEnv cfg w a 0 []) hi.pool hfit hx hpr
    have sf := (stake_facts hi.pool hs).1
    obtain ⟨effs, hre⟩ := restake_total (e := mkEnv cfg w a 0 []) (s := s2)
      (by rw [sf.paused, sf.key]; exact hkey)
    refine ⟨(s2, effs), ?_⟩
    simp only [exec, stake, bind_ok, notPayable_ok, pure_ok, Prod.exists, Prod.mk.injEq]
    exact ⟨(), rfl, w.pool, false, hp, s2, hs, effs, hre, rfl, rfl⟩

example : Reachable demoCfg demo ∧ Bounded demo ∧
    getAccountUnstakedBalance demo.epoch demo.pool "bob.near" = .ok 5 ∧
    demo.pool.lastEpochHeight = demo.epoch ∧
    demo.pool.totalStakedBalance ≤ demo.pool.totalStakeShares * 2 ∧
    ¬ demo.pool.totalStakedBalance ≤ demo.pool.totalStakeShares * 1 :=
  ⟨demo_reachable, demo_bounded, by decide +kernel, by decide +kernel, by decide +kernel,
   by decide +kernel⟩

/-! ## C03, the total balance -/

/-- **C03 (total balance view).** `get_account_total_balance` always answers, with the sum of the unstaked
and the staked balance that the other views report; so with what was already paid out it is at least
everything deposited. -/
theorem C03_total_balance_view {cfg : Cfg} {w : World} (h : Reachable cfg w) (hb : Bounded w)
    (a : AccountId) :
    ∃ t u x, getAccountTotalBalance w.epoch w.pool a = .ok t ∧
      getAccountUnstakedBalance w.epoch w.pool a = .ok u ∧
      getAccountStakedBalance w.epoch w.pool a = .ok x ∧ t = u + x ∧
      w.deposited a ≤ t + w.withdrawn a := by
  obtain ⟨s0, hi⟩ := reachable_inv h
  have hf := fits_world hi hb
  have h1 := unstaked_le_sum w.pool a
  have h2 : stakedOf w.pool a ≤ w.pool.totalStakedBalance := Arith.down_le_total (hi.pool.acc_le a)
  have h3 := hf.claims
  have h4 := hf.last
  refine ⟨_, _, _, ?_, getUnstaked_total hi.pool _ a, getStaked_total hi.pool _ a, rfl, hi.value a⟩
  simp only [getAccountTotalBalance, bind_ok, addU128_ok]
  refine ⟨_, getAccount_total hi.pool _ a, ?_, rfl⟩
  have : (2:Nat) ^ 120 < two128 := by unfold two128; norm_num
  show (getAcc w.pool a).unstaked + stakedOf w.pool a < two128
  omega

example : Reachable demoCfg demo ∧ Bounded demo := ⟨demo_reachable, demo_bounded⟩

end Verif.StakingPool
