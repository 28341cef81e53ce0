import Verif.System.Ops
import Verif.System.Props6

/-!
# System property C104: the owner's operations arrive at the pool
-/

namespace Verif.StakingPool

open Verif

/-- **C104 (pool).** `deposit_and_stake` at a pool that distributed its rewards in this epoch works exactly
when the deposit buys at least one share. -/
theorem C104_deposit_and_stake_iff {cfg : Cfg} {w : World} (h : Reachable cfg w) (hb : Bounded w)
    (a : AccountId) {d : Nat} (hd : w.liquid + w.locked + d < 2 ^ 120)
    (he : w.pool.lastEpochHeight = w.epoch) :
    (∃ r, exec (mkEnv cfg w a d []) w.pool .depositAndStake = .ok r) ↔
      w.pool.totalStakedBalance ≤ w.pool.totalStakeShares * d := by
  obtain ⟨s0, hi⟩ := reachable_inv h
  have hp : internalPing (mkEnv cfg w a d []) w.pool = .ok (w.pool, false) :=
    internalPing_ok.mpr (.inl ⟨he, rfl, rfl⟩)
  obtain ⟨hpf, hfit, hkey⟩ := ping_fits hi hb hp
  obtain ⟨s2, x, hdp⟩ := deposit_total (e := mkEnv cfg w a d []) hfit (by show d < _; omega)
  obtain ⟨hof, hx, hT, hS, hl, hsum, hacc⟩ := deposit_facts hi.pool hdp
  have hxd : x = d := hx
  subst hxd
  have hcov := hi.cover
  have hfit2 : Fits s2 := by
    constructor
    · have := hfit.claims; rw [hT, hsum, hl]; omega
    · rw [hl]; show w.pool.lastTotalBalance + x < _; omega
  constructor
  · rintro ⟨⟨p, effs⟩, hex⟩
    simp only [exec, depositAndStake, bind_ok, pure_ok, Prod.exists, Prod.mk.injEq] at hex
    obtain ⟨s1, b, hp', s2', x', hd', s3, hs, _⟩ := hex
    rw [hp] at hp'; cases hp'
    rw [hdp] at hd'; cases hd'
    obtain ⟨_, _, n, _, _, _, hn0, _, hnE, _⟩ := stake_facts hof.inv hs
    rw [hT, hS] at hnE
    by_contra hlt
    rw [Nat.div_eq_of_lt (by omega)] at hnE
    omega
  · intro hpr
    obtain ⟨s3, hs⟩ := stake_total (e := mkEnv cfg w a x []) (x := x) hof.inv hfit2
      (by rw [hacc, norm_unstaked]; exact Nat.le_add_left _ _) (by rw [hT, hS]; exact hpr)
    have sf := (stake_facts hof.inv hs).1
    obtain ⟨effs, hre⟩ := restake_total (e := mkEnv cfg w a x []) (s := s3)
      (by rw [sf.paused, sf.key, hof.paused, hof.key]; exact hkey)
    refine ⟨(s3, effs), ?_⟩
    simp only [exec, depositAndStake, bind_ok, pure_ok, Prod.exists, Prod.mk.injEq]
    exact ⟨w.pool, false, hp, s2, x, hdp, s3, hs, effs, hre, rfl, rfl⟩

example : Reachable demoCfg demo ∧ Bounded demo ∧ demo.liquid + demo.locked + 2 < 2 ^ 120 ∧
    demo.pool.lastEpochHeight = demo.epoch ∧
    demo.pool.totalStakedBalance ≤ demo.pool.totalStakeShares * 2 ∧
    ¬ demo.pool.totalStakedBalance ≤ demo.pool.totalStakeShares * 1 :=
  ⟨demo_reachable, demo_bounded, by decide +kernel, by decide +kernel, by decide +kernel,
   by decide +kernel⟩

end Verif.StakingPool

namespace Verif.System

open Verif

/-- **C104.** An operation of the owner, its receipt at the real pool and its callback have exactly this
effect. If the pool accepts: the pool did the operation for the account of the lockup, the deposit left the
account of the lockup, a withdrawn amount is on its way back, the known deposit is changed by the amount, and
nothing else changed anywhere. If the pool rejects, nothing changed at all once the refund arrived. -/
theorem C104_operation_exact {cfg : Cfg} {a : Lockup.NewArgs} {s : Sys} (h : Reachable cfg a s)
    {c : Lockup.OwnerCall} {att : Nat} {pc : StakingPool.Call} (hpc : poolCall c = some (att, pc))
    (hamt : ∀ x, Lockup.opAmount c = some x → 0 < x ∧ x < two128)
    {p : AccountId} {known : Nat} (hs : s.lk.c.staking = some ⟨p, false, known⟩)
    (hterm : ∀ u st, s.lk.c.vesting ≠ .terminating u st) (ho : s.lk.c.owner ≠ cfg.lockup)
    (hbal : 0 < att → att + 35 * 10 ^ 23 ≤ s.lk.bal) (hk : known + att < two128) :
    ∃ w, s.pools.get p = some w ∧
    ((StakingPool.exec (StakingPool.mkEnv (cfg.pool p) w cfg.lockup att []) w.pool pc).isOk = true →
      run cfg s (opRound s.lk.c.owner s.lk.pend.length c) = { s with
        pools := s.pools.insert p (StakingPool.step (cfg.pool p) w (.call cfg.lockup att pc))
        lk := { s.lk with
          c := { s.lk.c with staking := some ⟨p, false, knownAfter known c⟩ }
          bal := s.lk.bal - att
          incoming := s.lk.incoming + payout c } }) ∧
    ((StakingPool.exec (StakingPool.mkEnv (cfg.pool p) w cfg.lockup att []) w.pool pc).isOk = false →
      run cfg s (opRound s.lk.c.owner s.lk.pend.length c ++ [.arrive att]) = s) := by
  have hi := reachable_inv h
  obtain ⟨w, hw⟩ : ∃ w, s.pools.get p = some w :=
    contains_get.mp (hi.approved _ ((Lockup.reachable_selInv hi.reachable).sel _ hs))
  refine ⟨w, hw, ?_⟩
  obtain ⟨hne, hr⟩ := hi.pools p w hw
  obtain ⟨h1, h2⟩ := op_round hpc hamt hs hterm ho hbal hk hw
  constructor
  · intro hok
    cases hex : StakingPool.exec (StakingPool.mkEnv (cfg.pool p) w cfg.lockup att []) w.pool pc with
    | error err => rw [hex] at hok; cases hok
    | ok r =>
      obtain ⟨q, effs⟩ := r
      have hself : cfg.lockup ≠ (cfg.pool p).self := fun e => hne e.symm
      have hpay : StakingPool.paidTo cfg.lockup effs = payout c := by
        cases c <;> simp only [poolCall, reduceCtorEq, Option.some.injEq, Prod.mk.injEq] at hpc <;>
          obtain ⟨rfl, rfl⟩ := hpc <;>
          first
          | exact (withdraw_paid hr hex).2
          | exact other_paid hr rfl hex
      rw [h1 q effs hex, step_call hself hex, hpay]
  · intro hok
    cases hex : StakingPool.exec (StakingPool.mkEnv (cfg.pool p) w cfg.lockup att []) w.pool pc with
    | ok r => rw [hex] at hok; cases hok
    | error err =>
      have hle : att ≤ s.lk.bal := by
        by_cases h0 : 0 < att
        · have := hbal h0; omega
        · omega
      rw [run_append, h2 err hex]
      simp only [run, step, Lockup.step]
      rw [if_pos (Nat.le_add_left ..)]
      have e1 : s.lk.incoming + att - att = s.lk.incoming := by omega
      have e2 : s.lk.bal - att + att = s.lk.bal := by omega
      simp only [e1, e2]

/-- The owner of the example stakes 1 NEAR more: accepted; unstakes more than there is: rejected. -/
example : Reachable demoCfg Lockup.pollArgs demo ∧
    poolCall (.depositAndStake (10 ^ 24)) = some (10 ^ 24, .depositAndStake) ∧
    poolCall (.unstake (10 ^ 26)) = some (0, .unstake (10 ^ 26)) ∧
    demo.lk.c.staking = some ⟨"pool", false, 5 * 10 ^ 24⟩ ∧ demo.lk.c.owner ≠ demoCfg.lockup ∧
    10 ^ 24 + 35 * 10 ^ 23 ≤ demo.lk.bal ∧ 5 * 10 ^ 24 + 10 ^ 24 < two128 ∧
    (run demoCfg demo (opRound "owner" 0 (.depositAndStake (10 ^ 24)))).lk.c.staking =
      some ⟨"pool", false, 6 * 10 ^ 24⟩ ∧
    (run demoCfg demo (opRound "owner" 0 (.unstake (10 ^ 26)))).lk.c.staking =
      some ⟨"pool", false, 5 * 10 ^ 24⟩ :=
  ⟨demo_reachable, rfl, rfl, by decide +kernel, by decide +kernel, by decide +kernel, by decide +kernel,
   by decide +kernel, by decide +kernel⟩

example : ∀ u st, demo.lk.c.vesting ≠ .terminating u st := by
  intro u st h
  have : demo.lk.c.vesting.isTerminating = false := by decide +kernel
  rw [h] at this
  cases this

theorem reported_worth {cfg : Cfg} {s : Sys} {p : AccountId} {w : StakingPool.World}
    (hw : s.pools.get p = some w) : reported cfg s p = worth cfg.lockup w := by
  simp only [reported, hw]
  rfl

/-- What the pool owes to the lockup grows by the deposit of an accepted operation, minus what it paid. -/
theorem reported_op {cfg : Cfg} {a : Lockup.NewArgs} {s s' : Sys} (h : Reachable cfg a s)
    {p : AccountId} {w : StakingPool.World} (hw : s.pools.get p = some w) {att : Nat}
    {pc : StakingPool.Call} {q : StakingPool.Pool} {effs : List StakingPool.Eff}
    (hex : StakingPool.exec (StakingPool.mkEnv (cfg.pool p) w cfg.lockup att []) w.pool pc =
      .ok (q, effs))
    (hs' : s'.pools.get p = some (StakingPool.commit w cfg.lockup att pc q effs)) :
    reported cfg s p + att ≤ reported cfg s' p + StakingPool.paidTo cfg.lockup effs := by
  obtain ⟨hne, hr⟩ := (reachable_inv h).pools p w hw
  rw [reported_worth hw, reported_worth hs']
  exact (worth_call hr (fun e => hne e.symm) hex).2

/-- **C104.** A deposit arrives: a deposit that the balance beyond the storage reserve covers is always
accepted by the real pool; afterwards exactly this amount is added to the unstaked balance of the lockup at
the pool and to the known deposit and is gone from the account, and nothing is under way. -/
theorem C104_deposit_arrives {cfg : Cfg} {a : Lockup.NewArgs} {s : Sys} (h : Reachable cfg a s)
    {p : AccountId} {known : Nat} (hs : s.lk.c.staking = some ⟨p, false, known⟩)
    (hterm : ∀ u st, s.lk.c.vesting ≠ .terminating u st) (ho : s.lk.c.owner ≠ cfg.lockup)
    {x : Nat} (hx0 : 0 < x) (hx : x < 2 ^ 120) (hbal : x + 35 * 10 ^ 23 ≤ s.lk.bal)
    (hk : known + x < two128)
    {w : StakingPool.World} (hw : s.pools.get p = some w) (hb : StakingPool.Bounded w) :
    let s' := run cfg s (opRound s.lk.c.owner s.lk.pend.length (.depositToStakingPool x))
    s'.lk.bal = s.lk.bal - x ∧ s'.lk.incoming = s.lk.incoming ∧ s'.lk.pend = s.lk.pend ∧
    s'.lk.c = { s.lk.c with staking := some ⟨p, false, known + x⟩ } ∧
    reported cfg s p + x ≤ reported cfg s' p ∧
    ∃ w' u, s'.pools.get p = some w' ∧
      StakingPool.getAccountUnstakedBalance w.epoch w.pool cfg.lockup = .ok u ∧
      StakingPool.getAccountUnstakedBalance w'.epoch w'.pool cfg.lockup = .ok (u + x) := by
  intro s'
  obtain ⟨hne, hr⟩ := (reachable_inv h).pools p w hw
  obtain ⟨⟨q, effs⟩, hex⟩ :=
    (StakingPool.C17_ping_and_deposit_never_panic hr hb cfg.lockup x hx).2
  have h128 : (2 : Nat) ^ 120 < two128 := by unfold two128; norm_num
  have h1 := (op_round (c := .depositToStakingPool x) rfl
    (by intro y hy; cases hy; exact ⟨hx0, by omega⟩) hs hterm ho (fun _ => hbal) hk hw).1 q effs hex
  have hs' : s' = _ := h1
  have hpay := other_paid hr rfl hex
  have hget : s'.pools.get p = some (StakingPool.commit w cfg.lockup x .deposit q effs) := by
    rw [hs']; exact UMap.get_insert_self ..
  have hrep := reported_op h hw hex hget
  rw [hpay, Nat.add_zero] at hrep
  obtain ⟨s0, hi⟩ := StakingPool.reachable_inv hr
  obtain ⟨s1, hi1⟩ := StakingPool.reachable_inv (worth_call hr (fun e => hne e.symm) hex).1
  have hd := (StakingPool.C90_deposit_exact hr hex (StakingPool.getAccount_total hi.pool _ _)
    (StakingPool.getAccount_total hi1.pool _ _)).1
  refine ⟨by rw [hs'], by rw [hs', hpay]; rfl, by rw [hs'], by rw [hs']; rfl, hrep, _, _, hget,
    StakingPool.getUnstaked_total hi.pool _ _, ?_⟩
  rw [StakingPool.getUnstaked_total hi1.pool]
  exact congrArg Except.ok hd

/-- **C104.** Staking arrives: `deposit_and_stake` with an amount that the balance beyond the storage reserve
covers and that buys at least one share is accepted by the real pool (that distributed its rewards in this
epoch, which anybody can make it do), and what the pool owes to the lockup grows by at least the amount. With
an amount that does not buy a share nothing happens, and the tokens come back. -/
theorem C104_stake_arrives {cfg : Cfg} {a : Lockup.NewArgs} {s : Sys} (h : Reachable cfg a s)
    {p : AccountId} {known : Nat} (hs : s.lk.c.staking = some ⟨p, false, known⟩)
    (hterm : ∀ u st, s.lk.c.vesting ≠ .terminating u st) (ho : s.lk.c.owner ≠ cfg.lockup)
    {x : Nat} (hx0 : 0 < x) (hbal : x + 35 * 10 ^ 23 ≤ s.lk.bal) (hk : known + x < two128)
    {w : StakingPool.World} (hw : s.pools.get p = some w) (hb : StakingPool.Bounded w)
    (hx : w.liquid + w.locked + x < 2 ^ 120) (he : w.pool.lastEpochHeight = w.epoch) :
    let s' := run cfg s (opRound s.lk.c.owner s.lk.pend.length (.depositAndStake x))
    (w.pool.totalStakedBalance ≤ w.pool.totalStakeShares * x →
      s'.lk.bal = s.lk.bal - x ∧ s'.lk.incoming = s.lk.incoming ∧ s'.lk.pend = s.lk.pend ∧
      s'.lk.c = { s.lk.c with staking := some ⟨p, false, known + x⟩ } ∧
      reported cfg s p + x ≤ reported cfg s' p) ∧
    (w.pool.totalStakeShares * x < w.pool.totalStakedBalance → step cfg s' (.arrive x) = s) := by
  intro s'
  obtain ⟨hne, hr⟩ := (reachable_inv h).pools p w hw
  have hiff := StakingPool.C104_deposit_and_stake_iff hr hb cfg.lockup hx he
  have h128 : (2 : Nat) ^ 120 < two128 := by unfold two128; norm_num
  have hamt : ∀ y, Lockup.opAmount (.depositAndStake x) = some y → 0 < y ∧ y < two128 := by
    intro y hy; cases hy; exact ⟨hx0, by omega⟩
  constructor
  · intro hpr
    obtain ⟨⟨q, effs⟩, hex⟩ := hiff.mpr hpr
    have h1 := (op_round (c := .depositAndStake x) rfl hamt hs hterm ho (fun _ => hbal) hk hw).1 q effs
      hex
    have hs' : s' = _ := h1
    have hpay := other_paid hr rfl hex
    have hget : s'.pools.get p = some (StakingPool.commit w cfg.lockup x .depositAndStake q effs) := by
      rw [hs']; exact UMap.get_insert_self ..
    have hrep := reported_op h hw hex hget
    rw [hpay, Nat.add_zero] at hrep
    exact ⟨by rw [hs'], by rw [hs', hpay]; rfl, by rw [hs'], by rw [hs']; rfl, hrep⟩
  · intro hpr
    obtain ⟨w', hw', _, h2⟩ := C104_operation_exact h (c := .depositAndStake x) rfl hamt hs hterm ho
      (fun _ => hbal) hk
    rw [hw] at hw'; cases hw'
    have hno : (StakingPool.exec (StakingPool.mkEnv (cfg.pool p) w cfg.lockup x []) w.pool
        .depositAndStake).isOk = false := by
      cases hex : StakingPool.exec (StakingPool.mkEnv (cfg.pool p) w cfg.lockup x []) w.pool
        .depositAndStake with
      | error err => rfl
      | ok r =>
        have := hiff.mp ⟨r, hex⟩
        omega
    have := h2 hno
    rwa [run_append] at this

/-- The hypotheses of both are met by the pool of the example. -/
example : ∃ w, demo.pools.get "pool" = some w ∧ StakingPool.Bounded w ∧
    w.liquid + w.locked + 10 ^ 24 < 2 ^ 120 ∧ w.pool.lastEpochHeight = w.epoch ∧
    w.pool.totalStakedBalance ≤ w.pool.totalStakeShares * 10 ^ 24 ∧ 0 < w.pool.totalStakedBalance :=
  ⟨_, by with_unfolding_all rfl, ⟨by decide +kernel, by decide +kernel, by decide +kernel⟩,
   by decide +kernel, by decide +kernel, by decide +kernel, by decide +kernel⟩

/-- **C104.** Refreshing: after `refresh_staking_pool_balance`, its answer and the callback, the known deposit
is what the pool owes to the lockup, and nothing else changed. -/
theorem C104_refresh_exact {cfg : Cfg} {a : Lockup.NewArgs} {s : Sys} (h : Reachable cfg a s)
    {p : AccountId} {known : Nat} (hs : s.lk.c.staking = some ⟨p, false, known⟩)
    (hterm : ∀ u st, s.lk.c.vesting ≠ .terminating u st) (ho : s.lk.c.owner ≠ cfg.lockup)
    (hsmall : reported cfg s p < two128) :
    run cfg s (opRound s.lk.c.owner s.lk.pend.length .refreshStakingPoolBalance) = { s with
      lk := { s.lk with c := { s.lk.c with staking := some ⟨p, false, reported cfg s p⟩ } } } := by
  have hi := reachable_inv h
  obtain ⟨w, hw⟩ : ∃ w, s.pools.get p = some w :=
    contains_get.mp (hi.approved _ ((Lockup.reachable_selInv hi.reachable).sel _ hs))
  obtain ⟨hne, hr⟩ := hi.pools p w hw
  have hv : viewPool cfg w StakingPool.getAccountTotalBalance = .balance (reported cfg s p) := by
    rw [reported_worth hw] at hsmall ⊢
    obtain ⟨s0, hwi⟩ := StakingPool.reachable_inv hr
    rw [worth_eq hr] at hsmall ⊢
    have : StakingPool.getAccountTotalBalance w.epoch w.pool cfg.lockup =
        .ok ((StakingPool.getAcc w.pool cfg.lockup).unstaked + StakingPool.stakedOf w.pool cfg.lockup) := by
      simp only [StakingPool.getAccountTotalBalance, bind_ok, addU128_ok]
      exact ⟨_, StakingPool.getAccount_total hwi.pool _ _, hsmall, rfl⟩
    simp only [viewPool, this]
  have hx : Lockup.exec (Lockup.mkEnv cfg.lk s.lk s.lk.c.owner 0 none) s.lk.c
      (.owner .refreshStakingPoolBalance) =
      .ok ({ s.lk.c with staking := some ⟨p, true, known⟩ },
        some ⟨.poolTotalBalance p, some .onTotalBalance⟩) :=
    (Lockup.C74_pool_calls_exact (by intro q hq; cases hq) _ _ _ _).mpr ⟨rfl, rfl,
      (by intro y hy; cases hy), (by intro hy; cases hy), hterm, p, known, hs, rfl, rfl⟩
  have h1 := Lockup.step_call_ok (cfg := cfg.lk) ho hx (Nat.zero_le _)
  generalize reported cfg s p = N at hv hsmall
  clear hi hr h
  obtain ⟨⟨⟨owner, info, vesting, wl, staking, fdn⟩, bal, now, pend, incoming, held, loss, paid, fx,
    qd, ap, pa, fk⟩, pools, swl, poll⟩ := s
  simp only at hs ho hterm hw h1 ⊢
  subst hs
  have hnt : ∀ f, Lockup.newFixed vesting vesting f = f := fun f =>
    Lockup.newFixed_same (by cases hv : vesting <;> simp [Lockup.Vesting.isTerminating])
  have hcb : ∀ W, Lockup.exec (Lockup.mkEnv cfg.lk W cfg.lk.self 0 (some (.balance N)))
      ⟨owner, info, vesting, wl, some ⟨p, true, known⟩, fdn⟩ (.callback .onTotalBalance) =
      .ok (⟨owner, info, vesting, wl, some ⟨p, false, N⟩, fdn⟩, none) := by
    intro W
    obtain ⟨e1, e2⟩ := Lockup.env_self cfg.lk W (.balance N)
    have e3 := Lockup.callbackBalance_run cfg.lk W hsmall
    simp only [Lockup.exec, e1, ok_bind, Lockup.execCallback, Lockup.onTotalBalance, e2, e3]
    rfl
  simp only [Lockup.commit, Lockup.effPending, hnt, List.nil_append, Nat.add_zero,
    Lockup.effAttached, Lockup.Ext.attached, Lockup.effQueried, Nat.sub_zero] at h1
  simp only [opRound, run, step, h1, execute, Lockup.getElem?_last, Lockup.set_last, runExt, callOf,
    viewOf, hw, hv, Bool.true_eq_false, if_false]
  rw [Lockup.step_cb_last rfl (hcb _) (Nat.zero_le _)]
  simp only [Lockup.commit, Lockup.effPending, hnt, Lockup.effQueried, Lockup.effAttached,
    List.nil_append, List.append_nil, Nat.add_zero, Nat.sub_zero]

example : Reachable demoCfg Lockup.pollArgs demo ∧ reported demoCfg demo "pool" < two128 ∧
    (run demoCfg demo (opRound "owner" 0 .refreshStakingPoolBalance)).lk.c.staking =
      some ⟨"pool", false, reported demoCfg demo "pool"⟩ :=
  ⟨demo_reachable, by decide +kernel, by decide +kernel⟩

end Verif.System
