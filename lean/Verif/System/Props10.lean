import Verif.System.Rewards

/-!
# System property C109: rewards can be taken out before the tokens are unlocked
-/

namespace Verif.System

open Verif

/-- The owner asks the pool for the balance and then unstakes `x`; receipts and callbacks run. -/
def sysUnstakeRewards (o : AccountId) (k x : Nat) : List Ev :=
  opRound o k .refreshStakingPoolBalance ++ opRound o k (.unstake x)

/-- The owner withdraws `x` from the pool and, when the tokens arrived, transfers them to `r`. -/
def sysCashOut (o : AccountId) (k x : Nat) (r : AccountId) : List Ev :=
  opRound o k (.withdrawFromStakingPool x) ++ [.arrive x, .call o 0 (.owner (.transfer x r))]

/-- **C109.** Rewards belong to the owner: after `refresh_staking_pool_balance` the balance of the owner is
what is on the account plus what the pool owes to the lockup, rewards included, minus the locked amount. As
soon as transfers are enabled the owner can transfer exactly the amounts that this balance and the account
beyond the storage reserve cover. -/
theorem C109_rewards_are_the_owners {cfg : Cfg} {a : Lockup.NewArgs} {s : Sys} (h : Reachable cfg a s)
    (ho : s.lk.c.owner ≠ cfg.lockup) {p : AccountId} {known : Nat}
    (hs : s.lk.c.staking = some ⟨p, false, known⟩)
    (hterm : ∀ u st, s.lk.c.vesting ≠ .terminating u st)
    {L : Nat} (hL : Lockup.getLockedAmount (Lockup.mkEnv cfg.lk s.lk s.lk.c.owner 0 none) s.lk.c = .ok L)
    (hsum : s.lk.bal + reported cfg s p < two128) :
    let s1 := run cfg s (opRound s.lk.c.owner s.lk.pend.length .refreshStakingPoolBalance)
    Lockup.getOwnersBalance (Lockup.mkEnv cfg.lk s1.lk s.lk.c.owner 0 none) s1.lk.c =
      .ok (s.lk.bal + reported cfg s p - L) ∧
    ∀ x r, 0 < x → x < two128 → cfg.validAccountId r = true →
      (∃ t, s.lk.c.info.transfers = .enabled t) →
      ((Lockup.exec (Lockup.mkEnv cfg.lk s1.lk s.lk.c.owner 0 none) s1.lk.c
          (.owner (.transfer x r))).isOk = true ↔
        x ≤ s.lk.bal + reported cfg s p - L ∧ x ≤ s.lk.bal - 35 * 10 ^ 23) := by
  intro s1
  have h1 : s1 = _ := C104_refresh_exact h hs hterm ho (by omega)
  have hv := Lockup.views_eq (e := Lockup.mkEnv cfg.lk s1.lk s.lk.c.owner 0 none) (c := s1.lk.c) (L := L)
    (by rw [h1]; exact hL) (by rw [h1]; show s.lk.bal + 0 + reported cfg s p < _; omega)
  have hab : (Lockup.mkEnv cfg.lk s1.lk s.lk.c.owner 0 none).accountBalance = s.lk.bal := by
    rw [h1]; exact Nat.add_zero _
  have hkn : Lockup.knownDeposited s1.lk.c = reported cfg s p := by rw [h1]; rfl
  rw [hab, hkn] at hv
  refine ⟨hv.1, fun x r hx0 hx hr ht => ?_⟩
  have hiff := Lockup.C76_liquid_is_transferable (e := Lockup.mkEnv cfg.lk s1.lk s.lk.c.owner 0 none)
    (s := s1.lk.c) (x := x) (r := r) hv.2 rfl (by rw [h1]; rfl) ⟨hx0, hx⟩ hr (by rw [h1]; exact ht)
    (by rw [h1]; intro si hsi; cases hsi; rfl) (by rw [h1]; exact hterm)
  rw [← Nat.le_min, ← hiff]
  constructor
  · intro hok
    cases hex : Lockup.exec (Lockup.mkEnv cfg.lk s1.lk s.lk.c.owner 0 none) s1.lk.c
        (.owner (.transfer x r)) with
    | error err => rw [hex] at hok; cases hok
    | ok q => exact ⟨q.1, q.2, rfl⟩
  · rintro ⟨s', eff, hex⟩
    rw [hex]; rfl

/-- The example after the vote: transfers are enabled, all 10 NEAR are locked, 5 of them are staked. -/
def demoFree : Sys := run demoCfg demo demoVote

theorem demoFree_reachable : Reachable demoCfg Lockup.pollArgs demoFree :=
  demo_reachable.run (careful_of_bool (by decide +kernel))

theorem demoFree_vesting (u : Nat) (st : Lockup.TStatus) : demoFree.lk.c.vesting ≠ .terminating u st := by
  intro h
  have : demoFree.lk.c.vesting.isTerminating = false := by decide +kernel
  rw [h] at this
  cases this

/-- The rewards of the example. -/
def demoReward : Nat := reported demoCfg demoFree "pool" - 5 * 10 ^ 24

/-- The hypotheses are met; the owner can transfer exactly the rewards although everything is locked. -/
example : demoFree.lk.c.owner ≠ demoCfg.lockup ∧
    demoFree.lk.c.staking = some ⟨"pool", false, 5 * 10 ^ 24⟩ ∧
    Lockup.getLockedAmount (Lockup.mkEnv demoCfg.lk demoFree.lk demoFree.lk.c.owner 0 none)
      demoFree.lk.c = .ok (10 * 10 ^ 24) ∧
    demoFree.lk.bal + reported demoCfg demoFree "pool" < two128 ∧
    demoFree.lk.c.info.transfers = .enabled 1003 ∧
    demoFree.lk.bal + reported demoCfg demoFree "pool" - 10 * 10 ^ 24 = demoReward ∧
    10 ^ 20 < demoReward ∧ demoReward ≤ demoFree.lk.bal - 35 * 10 ^ 23 := by
  refine ⟨by decide +kernel, by decide +kernel, by decide +kernel, by decide +kernel, by decide +kernel,
    by decide +kernel, by decide +kernel, by decide +kernel⟩

/-- **C109.** The owner takes rewards out before the tokens are unlocked. From every idle state with enabled
transfers, a selected pool of /repo and no termination, let `x` be staked at the pool and be covered by what
is on the account plus what the pool owes (rewards included) minus the locked amount. The owner refreshes the
balance and unstakes `x`. Then anything may happen (`wait`) except calls of the owner and the foundation.
Once the pool is four epochs further and its account holds `x`, the owner withdraws `x` and transfers it to
any account. All of it is accepted: exactly `x` leaves the lockup account, the rest stays at the pool, and
nothing else changes in the last stage. -/
theorem C109_owner_takes_rewards {cfg : Cfg} {a : Lockup.NewArgs} {s : Sys} (h : Reachable cfg a s)
    (hv : Lockup.VestingOk cfg.lk (Lockup.argVesting a))
    (ho : s.lk.c.owner ≠ cfg.lockup) {p : AccountId} {known : Nat}
    (hs : s.lk.c.staking = some ⟨p, false, known⟩)
    (hterm : ∀ u st, s.lk.c.vesting ≠ .terminating u st)
    {t : Nat} (ht : s.lk.c.info.transfers = .enabled t)
    (hamount : 35 * 10 ^ 23 ≤ s.lk.c.info.lockupAmount)
    {w : StakingPool.World} (hw : s.pools.get p = some w) (hb : StakingPool.Bounded w) {S : Nat}
    (hS : StakingPool.getAccountStakedBalance w.epoch w.pool cfg.lockup = .ok S)
    {L : Nat} (hL : Lockup.getLockedAmount (Lockup.mkEnv cfg.lk s.lk s.lk.c.owner 0 none) s.lk.c = .ok L)
    {x : Nat} (hx0 : 0 < x) (hxS : x ≤ S) (hxL : x + L ≤ s.lk.bal + reported cfg s p)
    {wait : List Ev}
    (hcar : Careful cfg (run cfg s (sysUnstakeRewards s.lk.c.owner s.lk.pend.length x)) wait)
    (hq : ∀ ev ∈ wait, ev.caller ≠ some s.lk.c.owner ∧
      (ev.caller = none ∨ ev.caller ≠ s.lk.c.foundation))
    {w2 : StakingPool.World}
    (hw2 : (run cfg s (sysUnstakeRewards s.lk.c.owner s.lk.pend.length x ++ wait)).pools.get p = some w2)
    (hep : w.epoch + 4 ≤ w2.epoch) (hb2 : StakingPool.Bounded w2) (hliq : x ≤ w2.liquid)
    {r : AccountId} (hr : cfg.validAccountId r = true)
    (hsum : (run cfg s (sysUnstakeRewards s.lk.c.owner s.lk.pend.length x ++ wait)).lk.bal +
      reported cfg s p < two128) :
    let s2 := run cfg s (sysUnstakeRewards s.lk.c.owner s.lk.pend.length x ++ wait)
    let s3 := run cfg s2 (sysCashOut s.lk.c.owner s2.lk.pend.length x r)
    s.lk.bal ≤ s2.lk.bal ∧
    s3.lk = { s2.lk with
      c := { s2.lk.c with staking := some ⟨p, false, reported cfg s p - x⟩ }
      pend := s2.lk.pend ++ [⟨.transfer r x, none, .sent⟩] } ∧
    reported cfg s p ≤ reported cfg s3 p + x ∧
    s3.wl = s2.wl ∧ s3.poll = s2.poll ∧ ∀ q, q ≠ p → s3.pools.get q = s2.pools.get q := by
  intro s2 s3
  have hi := reachable_inv h
  obtain ⟨hpl, hre⟩ := hi.pools p w hw
  have hself : cfg.lockup ≠ (cfg.pool p).self := fun e => hpl e.symm
  obtain ⟨i0, hwi⟩ := StakingPool.reachable_inv hre
  have hxR : x ≤ reported cfg s p := by
    rw [reported_worth hw, worth_eq hre]
    rw [StakingPool.getStaked_total hwi.pool] at hS
    cases hS
    omega
  -- refresh
  have hR : reported cfg s p < two128 := by
    have : s2.lk.bal + reported cfg s p < two128 := hsum
    omega
  have h1 := C104_refresh_exact h hs hterm ho hR
  generalize hR' : reported cfg s p = R at *
  have hc1 : Careful cfg s (opRound s.lk.c.owner s.lk.pend.length .refreshStakingPoolBalance) := by
    simp [opRound, Careful]
  have hre1 := h.run hc1
  rw [h1] at hre1
  -- unstake
  obtain ⟨q, effs, u, u', hex, hu, hu', huu⟩ := StakingPool.unstake_works hre hb cfg.lockup hS hx0 hxS
  have h2 := (op_round (cfg := cfg) (s := { s with
      lk := { s.lk with c := { s.lk.c with staking := some ⟨p, false, R⟩ } } }) (c := .unstake x)
    rfl (by intro y hy; cases hy; exact ⟨hx0, by omega⟩) rfl hterm ho (fun h => absurd h (by omega))
    (by omega) hw).1 q effs hex
  have hpay := other_paid hre rfl hex
  rw [hpay] at h2
  obtain ⟨hreW1, hworth1⟩ := worth_call hre hself hex
  rw [hpay] at hworth1
  generalize hW1 : StakingPool.commit w cfg.lockup 0 (.unstake x) q effs = w1 at *
  have hrunU : run cfg s (sysUnstakeRewards s.lk.c.owner s.lk.pend.length x) = { s with
      pools := s.pools.insert p w1
      lk := { s.lk with c := { s.lk.c with staking := some ⟨p, false, R⟩ } } } := by
    unfold sysUnstakeRewards
    rw [run_append, h1]
    exact h2
  have hcU : Careful cfg s (sysUnstakeRewards s.lk.c.owner s.lk.pend.length x) := by
    simp [sysUnstakeRewards, opRound, Careful]
  have hreU := h.run hcU
  have hs2 : s2 = run cfg (run cfg s (sysUnstakeRewards s.lk.c.owner s.lk.pend.length x)) wait := by
    show run cfg s (_ ++ wait) = _; rw [run_append]
  rw [hrunU] at hs2 hcar hreU
  generalize hsU : ({ s with
      pools := s.pools.insert p w1
      lk := { s.lk with c := { s.lk.c with staking := some ⟨p, false, R⟩ } } } : Sys) = sU at *
  have hlc : sU.lk.c = { s.lk.c with staking := some ⟨p, false, R⟩ } := by rw [← hsU]
  have hgU : sU.pools.get p = some w1 := by rw [← hsU]; exact UMap.get_insert_self ..
  have hiU := reachable_inv hreU
  -- wait
  have hcalm : Lockup.Calm sU.lk.c p R :=
    ⟨by rw [hlc], fun u st hv => absurd (by rw [hlc] at hv; exact hv) (hterm u st)⟩
  have hquiet : ∀ ev ∈ wait, ev.Quiet sU.lk.c := by
    intro ev hev who hwho
    rw [hlc]
    obtain ⟨g1, g2⟩ := hq ev hev
    rw [hwho] at g1 g2
    refine ⟨.inr (fun e => g1 (by rw [e])), fun e => ?_⟩
    rcases g2 with g2 | g2
    · cases g2
    · exact g2 e.symm
  obtain ⟨hsame, hbw, w2', hg2, evs, hno, hw2'⟩ := calm_sys_run hiU hcalm hcar hquiet hgU
  obtain ⟨hinfo, hnow, L1, L2, hL1, hL2, hLL⟩ := locked_wait hiU hv hcar hsame (t := t)
    (by rw [hlc]; exact ht)
  have hre2 := hreU.run hcar
  rw [← hs2] at hsame hbw hg2 hinfo hnow hL2 hre2
  have hw2s : s2.pools.get p = some w2 := hw2
  rw [hw2s] at hg2
  have e2 : w2 = w2' := Option.some.inj hg2
  rw [← e2] at hw2'
  have hbU : sU.lk.bal = s.lk.bal := by rw [← hsU]
  have hnU : sU.lk.now = s.lk.now := by rw [← hsU]
  rw [hbU] at hbw
  -- the pool after the wait
  obtain ⟨i1, hwi1⟩ := StakingPool.reachable_inv hreW1
  obtain ⟨_, hun, hav⟩ := StakingPool.run_bystander hwi1 hno
  rw [← hw2'] at hun hav
  have hsoon := StakingPool.unlock_soon hreW1 cfg.lockup
  have hep1 : w1.epoch = w.epoch := by rw [← hW1]; rfl
  have hreW2 := ((reachable_inv hre2).pools p w2 hw2s).2
  obtain ⟨i2, hwi2⟩ := StakingPool.reachable_inv hreW2
  have hworth2 : worth cfg.lockup w1 ≤ worth cfg.lockup w2 := by
    rw [hw2']; exact worth_others hreW1 hno
  have hunst : x ≤ (StakingPool.getAcc w1.pool cfg.lockup).unstaked := by
    rw [StakingPool.getUnstaked_total (s := q) (by rw [← hW1] at hwi1; exact hwi1.pool)] at hu'
    cases hu'
    rw [← hW1]
    show x ≤ (StakingPool.getAcc q cfg.lockup).unstaked
    omega
  obtain ⟨q2, effs2, hex2⟩ := (StakingPool.C07_withdraw_iff hreW2 hb2 cfg.lockup x
    (StakingPool.getAccount_total hwi2.pool _ _)).1.mpr
    ⟨hx0, by show x ≤ (StakingPool.getAcc w2.pool cfg.lockup).unstaked; omega,
     decide_eq_true (by show (StakingPool.getAcc w2.pool cfg.lockup).unstakedAvailableEpoch ≤ w2.epoch; omega), hliq⟩
  -- withdraw
  have hst2 : s2.lk.c.staking = some ⟨p, false, R⟩ := by rw [hsame.staking, hlc]
  have hv2 : s2.lk.c.vesting = s.lk.c.vesting := by rw [hsame.vesting, hlc]
  have ho2 : s2.lk.c.owner = s.lk.c.owner := by rw [hsame.owner, hlc]
  have hinfo2 : s2.lk.c.info = s.lk.c.info := by rw [hinfo, hlc]
  have hterm2 : ∀ u st, s2.lk.c.vesting ≠ .terminating u st := by rw [hv2]; exact hterm
  have h3 := (op_round (cfg := cfg) (s := s2) (c := .withdrawFromStakingPool x)
    rfl (by intro y hy; cases hy; exact ⟨hx0, by omega⟩) hst2 hterm2 (by rw [ho2]; exact ho)
    (fun h => absurd h (by omega)) (by omega) hw2s).1 q2 effs2 hex2
  have hpay2 := (withdraw_paid hreW2 hex2).2
  have hworth3 := (worth_call hreW2 hself hex2).2
  rw [hpay2] at hworth3 h3
  rw [ho2] at h3
  generalize StakingPool.commit w2 cfg.lockup 0 (.withdraw x) q2 effs2 = w3 at *
  have hs3 : s3 = run cfg (run cfg s2 (opRound s.lk.c.owner s2.lk.pend.length
      (.withdrawFromStakingPool x))) [.arrive x, .call s.lk.c.owner 0 (.owner (.transfer x r))] := by
    show run cfg s2 (_ ++ _) = _; rw [run_append]
  rw [h3] at hs3
  have hres := C102_reserve_on_account hre2
  rw [hinfo2] at hres
  have hsum2 : s2.lk.bal + R < two128 := hsum
  have hL0 : L = L1 := by
    have := hL1 (Lockup.mkEnv cfg.lk s.lk s.lk.c.owner 0 none) hnU.symm
    rw [hlc] at this
    have h' : Lockup.getLockedAmount (Lockup.mkEnv cfg.lk s.lk s.lk.c.owner 0 none) s.lk.c = .ok L1 := this
    rw [hL] at h'
    exact Except.ok.inj h'
  have htr := Lockup.step_transfer (cfg := cfg.lk) (w := { s2.lk with
      c := { s2.lk.c with staking := some ⟨p, false, R - x⟩ }
      bal := s2.lk.bal + x }) (L := L2) (x := x) (r := r)
    (by show s2.lk.c.owner ≠ _; rw [ho2]; exact ho)
    (hL2 _ _ rfl (by rw [hlc]; exact hv2) (by rw [hlc]; exact hinfo2))
    (by show s2.lk.bal + x + (R - x) < _; omega) hx0 hr ⟨t, by show s2.lk.c.info.transfers = _; rw [hinfo2]; exact ht⟩
    (by intro si hsi; cases hsi; rfl) hterm2
    (by show x + L2 ≤ s2.lk.bal + x + (R - x); omega)
    (by show x + 35 * 10 ^ 23 ≤ s2.lk.bal + x; omega)
  have hfin : s3 = { s2 with
      pools := s2.pools.insert p w3
      lk := { s2.lk with
        c := { s2.lk.c with staking := some ⟨p, false, R - x⟩ }
        pend := s2.lk.pend ++ [⟨.transfer r x, none, .sent⟩] } } := by
    have e1 : s2.lk.incoming + x - x = s2.lk.incoming := by omega
    have e2 : s2.lk.bal - 0 + x = s2.lk.bal + x := by omega
    have e3 : s2.lk.bal + x - x = s2.lk.bal := by omega
    have ho2' : s2.lk.c.owner = s.lk.c.owner := ho2
    rw [hs3]
    simp only [run]
    rw [show step cfg _ (.arrive x) = ({ s2 with
        pools := s2.pools.insert p w3
        lk := { s2.lk with
          c := { s2.lk.c with staking := some ⟨p, false, R - x⟩ }
          bal := s2.lk.bal + x } } : Sys) from by
      simp only [step, Lockup.step, knownAfter]
      rw [if_pos (Nat.le_add_left ..)]
      simp only [e1, e2]]
    rw [← ho2']
    show ({ s2 with pools := _, lk := Lockup.step cfg.lk _ _ } : Sys) = _
    rw [htr]
    simp only [e3]
  refine ⟨hbw, by rw [hfin], ?_, by rw [hfin], by rw [hfin], ?_⟩
  · rw [reported_worth (w := w3) (by rw [hfin]; exact UMap.get_insert_self ..), ← hR',
      reported_worth hw]
    omega
  · intro q hqp
    rw [hfin]
    exact (UMap.get_insert ..).trans (if_neg (Ne.symm hqp))

/-- A decidable check of the conditions on the pool. -/
def rewardsReadyB (s s2 : Sys) (x : Nat) : Bool :=
  match s.pools.get "pool", s2.pools.get "pool" with
  | some w, some w2 =>
    decide (w.liquid + w.locked < 2 ^ 120 ∧ w.epoch < 2 ^ 63 ∧ w.roundings ≤ 1000000000000 ∧
      w2.liquid + w2.locked < 2 ^ 120 ∧ w2.epoch < 2 ^ 63 ∧ w2.roundings ≤ 1000000000000 ∧
      w.epoch + 4 ≤ w2.epoch ∧ x ≤ w2.liquid) &&
    (match StakingPool.getAccountStakedBalance w.epoch w.pool "lockup" with
      | .ok n => decide (x ≤ n)
      | _ => false)
  | _, _ => false

/-- The hypotheses are met by the wait of C92 and the rewards of the example; afterwards the receipt with
the rewards is under way, and the other five NEAR are still staked. -/
example : Lockup.VestingOk demoCfg.lk (Lockup.argVesting Lockup.pollArgs) ∧
    35 * 10 ^ 23 ≤ demoFree.lk.c.info.lockupAmount ∧ 0 < demoReward ∧
    demoReward + 10 * 10 ^ 24 ≤ demoFree.lk.bal + reported demoCfg demoFree "pool" ∧
    Careful demoCfg (run demoCfg demoFree (sysUnstakeRewards "owner" 0 demoReward)) demoWait ∧
    (∀ ev ∈ demoWait, ev.caller ≠ some "owner" ∧ (ev.caller = none ∨ ev.caller ≠ some "fdn")) ∧
    demoFree.lk.c.foundation = some "fdn" ∧ demoFree.lk.pend.length = 0 ∧
    rewardsReadyB demoFree (run demoCfg demoFree (sysUnstakeRewards "owner" 0 demoReward ++ demoWait))
      demoReward = true ∧
    (run demoCfg demoFree (sysUnstakeRewards "owner" 0 demoReward ++ demoWait ++
      sysCashOut "owner" 0 demoReward "bob")).lk.pend = [⟨.transfer "bob" demoReward, none, .sent⟩] ∧
    (run demoCfg demoFree (sysUnstakeRewards "owner" 0 demoReward ++ demoWait ++
      sysCashOut "owner" 0 demoReward "bob")).lk.c.staking = some ⟨"pool", false, 5 * 10 ^ 24⟩ := by
  refine ⟨by constructor <;> decide, by decide +kernel, by decide +kernel, by decide +kernel,
    careful_of_bool (by decide +kernel), ?_, by decide +kernel, by decide +kernel, by decide +kernel,
    by decide +kernel, by decide +kernel⟩
  simp [demoWait, Ev.caller]

end Verif.System
