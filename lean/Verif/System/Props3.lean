import Verif.System.Stages

/-!
# System property C92: the owner brings everything back from a real pool
-/

namespace Verif.System

open Verif

/-- **C92.** From every idle state with a selected pool of /repo and no termination, the owner alone
gets everything back. The owner calls `unstake_all`. Then anything may happen (`wait`) except calls of
the owner and the foundation; the pool may pause, change fees or get rewards. Once the pool is four
epochs further and its account holds the unlocked tokens, `withdraw_all_from_staking_pool` brings to
the lockup account at least what the pool reported before; after `refresh_staking_pool_balance` and
`unselect_staking_pool` the pool reports nothing and no pool is selected. Nothing else changes in the
last two stages. -/
theorem C92_owner_recovers_everything {cfg : Cfg} {a : Lockup.NewArgs} {s : Sys}
    (h : Reachable cfg a s) (ho : a.owner ≠ cfg.lockup) {p : AccountId} {known : Nat}
    (hs : s.lk.c.staking = some ⟨p, false, known⟩)
    (hterm : ∀ u st, s.lk.c.vesting ≠ .terminating u st)
    {w : StakingPool.World} (hw : s.pools.get p = some w) (hb : StakingPool.Bounded w)
    {wait : List Ev} (hcar : Careful cfg (run cfg s (sysUnstake a.owner s.lk.pend.length)) wait)
    (hq : ∀ ev ∈ wait, ev.caller ≠ some a.owner ∧
      (ev.caller = none ∨ ev.caller ≠ s.lk.c.foundation))
    {w2 : StakingPool.World}
    (hw2 : (run cfg s (sysUnstake a.owner s.lk.pend.length ++ wait)).pools.get p = some w2)
    (hep : w.epoch + 4 ≤ w2.epoch) (hb2 : StakingPool.Bounded w2) {N : Nat}
    (hN : StakingPool.getAccountUnstakedBalance w2.epoch w2.pool cfg.lockup = .ok N)
    (hliq : N ≤ w2.liquid) (hown : StakingPool.getOwnerId w2.pool ≠ cfg.lockup) :
    let s2 := run cfg s (sysUnstake a.owner s.lk.pend.length ++ wait)
    let s3 := run cfg s2 (sysFetch a.owner s2.lk.pend.length N)
    let s4 := run cfg s3 (sysLeave a.owner s3.lk.pend.length)
    reported cfg s p ≤ N ∧
    s2.lk.c.staking = s.lk.c.staking ∧ s2.lk.c.vesting = s.lk.c.vesting ∧
    s.lk.bal ≤ s2.lk.bal ∧ s3.lk.bal = s2.lk.bal + N ∧
    s3.lk.c.staking = some ⟨p, false, known - N⟩ ∧
    s4.lk.bal = s3.lk.bal ∧ s4.lk.c = { s2.lk.c with staking := none } ∧ reported cfg s4 p = 0 ∧
    s4.lk.pend = s2.lk.pend ∧ s4.lk.incoming = s2.lk.incoming ∧ s4.lk.now = s2.lk.now ∧
    s4.wl = s2.wl ∧ s4.poll = s2.poll ∧ ∀ q, q ≠ p → s4.pools.get q = s2.pools.get q := by
  intro s2 s3 s4
  have hi := reachable_inv h
  have hoc := owner_const hi
  rw [← hoc] at ho hq
  -- unstake
  obtain ⟨w1, r1, hg1, f1, he1, ho1, hz1, hu1⟩ := sys_unstake hi ho hs hterm hw hb
  rw [hoc] at r1 hg1 f1
  have hc1 : Careful cfg s (sysUnstake a.owner s.lk.pend.length) := by simp [sysUnstake, Careful]
  have hi1 := (inv_run hi hc1).1
  generalize hs1 : run cfg s (sysUnstake a.owner s.lk.pend.length) = s1 at *
  have hlc1 : s1.lk.c = s.lk.c := by
    have := congrArg Lockup.World.c r1; exact this.symm
  -- wait
  have hcalm : Lockup.Calm s1.lk.c p known :=
    ⟨by rw [hlc1]; exact hs, fun u st hv => absurd (by rw [← hlc1]; exact hv) (hterm u st)⟩
  have hquiet : ∀ ev ∈ wait, ev.Quiet s1.lk.c := by
    intro ev hev who hwho
    rw [hlc1]
    obtain ⟨g1, g2⟩ := hq ev hev
    rw [hwho] at g1 g2
    refine ⟨.inr (fun e => g1 (by rw [e])), fun e => ?_⟩
    rcases g2 with g2 | g2
    · cases g2
    · exact g2 e.symm
  obtain ⟨hsame, hbw, w2', hg2, evs, hno, hw2'⟩ := calm_sys_run hi1 hcalm hcar hquiet hg1
  have hi2 := (inv_run hi1 hcar).1
  have hs2 : s2 = run cfg s1 wait := by show run cfg s (_ ++ wait) = _; rw [run_append, hs1]
  have hw2s : s2.pools.get p = some w2 := hw2
  rw [← hs2] at hg2 hi2 hsame hbw
  have hbal1 : s1.lk.bal = s.lk.bal := (congrArg Lockup.World.bal r1).symm
  rw [hbal1] at hbw
  rw [hw2s] at hg2
  have e2 : w2 = w2' := Option.some.inj hg2
  rw [← e2] at hw2'
  have hre1 := (hi1.pools p w1 hg1).2
  obtain ⟨s0, hwi1⟩ := StakingPool.reachable_inv hre1
  obtain ⟨_, hun, hav⟩ := StakingPool.run_bystander hwi1 hno
  rw [← hw2'] at hun hav
  have hown1 : cfg.lockup ≠ w1.pool.ownerId := by
    have := StakingPool.run_owner hwi1 evs
    rw [← hw2'] at this
    rw [← this]; exact fun e => hown e.symm
  have hacc2 := StakingPool.run_nonowner hwi1 hown1 hno
  rw [← hw2'] at hacc2
  have hsoon := StakingPool.unlock_soon hre1 cfg.lockup
  have hre2 := (hi2.pools p w2 hw2s).2
  obtain ⟨s02, hwi2⟩ := StakingPool.reachable_inv hre2
  rw [StakingPool.getUnstaked_total hwi2.pool] at hN
  cases hN
  have hst2 : s2.lk.c.staking = some ⟨p, false, known⟩ := by
    rw [hsame.staking, hlc1]; exact hs
  have hv2 : s2.lk.c.vesting = s.lk.c.vesting := by rw [hsame.vesting, hlc1]
  have ho2 : s2.lk.c.owner = s.lk.c.owner := by rw [hsame.owner, hlc1]
  have hterm2 : ∀ u st, s2.lk.c.vesting ≠ .terminating u st := by rw [hv2]; exact hterm
  -- fetch
  obtain ⟨w3, r3, hg3, f3, _, ho3, hu3, hsh3⟩ := sys_fetch hi2 (by rw [ho2]; exact ho) hst2 hterm2
    hw2s hb2 rfl (by omega) hliq
  rw [ho2, hoc] at r3 hg3 f3
  have hs3 : s3 = run cfg s2 (sysFetch a.owner s2.lk.pend.length
    (StakingPool.getAcc w2.pool cfg.lockup).unstaked) := rfl
  rw [← hs3] at r3 hg3 f3
  have hc3 : Careful cfg s2 (sysFetch a.owner s2.lk.pend.length
      (StakingPool.getAcc w2.pool cfg.lockup).unstaked) := by
    unfold sysFetch; split <;> simp [Careful]
  have hi3 : Inv cfg a s3 := (inv_run hi2 hc3).1
  have hl3 : s3.lk.c = { s2.lk.c with staking := some ⟨p, false, known -
      (StakingPool.getAcc w2.pool cfg.lockup).unstaked⟩ } := (congrArg Lockup.World.c r3).symm
  have hbal3 : s3.lk.bal = s2.lk.bal + (StakingPool.getAcc w2.pool cfg.lockup).unstaked :=
    (congrArg Lockup.World.bal r3).symm
  have hre3 := (hi3.pools p w3 hg3).2
  have hz3 : worth cfg.lockup w3 = 0 := by
    rw [worth_eq hre3, hu3, StakingPool.stakedOf_zero]
    rw [hsh3 (fun e => hown e.symm), hacc2]; exact hz1
  -- leave
  obtain ⟨r4, hp4, hwl4, hpo4⟩ := sys_leave hi3 (p := p)
    (known := known - (StakingPool.getAcc w2.pool cfg.lockup).unstaked) (w := w3)
    (by rw [hl3]; show s2.lk.c.owner ≠ _; rw [ho2]; exact ho) (by rw [hl3])
    (by rw [hl3]; exact hterm2) hg3 hz3
  have ho3' : s3.lk.c.owner = a.owner := by rw [hl3]; show s2.lk.c.owner = _; rw [ho2, hoc]
  rw [ho3'] at r4 hp4 hwl4 hpo4
  have hs4 : s4 = run cfg s3 (sysLeave a.owner s3.lk.pend.length) := rfl
  rw [← hs4] at r4 hp4 hwl4 hpo4
  have hlc4 := congrArg Lockup.World.c r4
  refine ⟨?_, hst2.trans hs.symm, hv2, hbw, hbal3, by rw [hl3], (congrArg Lockup.World.bal r4).symm, ?_,
    ?_, ?_, ?_, ?_, hwl4.trans f3.wl, hpo4.trans f3.poll, ?_⟩
  · rw [reported_eq hw, hun]; exact hu1
  · have : s4.lk.c = { s3.lk.c with staking := none } := hlc4.symm
    rw [this, hl3]
  · rw [reported_eq (w := w3) (by rw [hp4]; exact hg3)]; exact hz3
  · exact (congrArg Lockup.World.pend r4).symm.trans (congrArg Lockup.World.pend r3).symm
  · exact (congrArg Lockup.World.incoming r4).symm.trans (congrArg Lockup.World.incoming r3).symm
  · exact (congrArg Lockup.World.now r4).symm.trans (congrArg Lockup.World.now r3).symm
  · intro q hqp
    rw [hp4]; exact f3.others q hqp

/-- Five epochs pass; rewards arrive, the pool unlocks its stake, the owner of the pool pauses staking,
somebody sends tokens to the lockup. -/
def demoWait : List Ev :=
  [.pool "pool" (.epochs 2), .pool "pool" (.reward (10 ^ 23)), .pool "pool" (.call "boss" 0 .pauseStaking),
   .income 7, .pool "pool" (.epochs 3), .pool "pool" (.unlock (40 * 10 ^ 24)),
   .call "mallory" 0 (.owner .unstakeAll)]

/-- A decidable check of the conditions on the pool in C92. -/
def readyB (s s2 : Sys) : Bool :=
  match s.pools.get "pool", s2.pools.get "pool" with
  | some w, some w2 =>
    decide (w.liquid + w.locked < 2 ^ 120 ∧ w.epoch < 2 ^ 63 ∧ w.roundings ≤ 1000000000000 ∧
      w2.liquid + w2.locked < 2 ^ 120 ∧ w2.epoch < 2 ^ 63 ∧ w2.roundings ≤ 1000000000000 ∧
      w.epoch + 4 ≤ w2.epoch ∧ w2.pool.ownerId ≠ "lockup") &&
    (match StakingPool.getAccountUnstakedBalance w2.epoch w2.pool "lockup" with
      | .ok n => decide (0 < n ∧ n ≤ w2.liquid)
      | _ => false)
  | _, _ => false

/-- The hypotheses of C92 are met by a history in which a reward comes after the unstaking. -/
example : Reachable demoCfg Lockup.pollArgs demo ∧ Lockup.pollArgs.owner ≠ demoCfg.lockup ∧
    demo.lk.c.staking = some ⟨"pool", false, 5 * 10 ^ 24⟩ ∧
    demo.lk.c.vesting.isTerminating = false ∧
    Careful demoCfg (run demoCfg demo (sysUnstake "owner" demo.lk.pend.length)) demoWait ∧
    (∀ ev ∈ demoWait, ev.caller ≠ some "owner" ∧ (ev.caller = none ∨ ev.caller ≠ some "fdn")) ∧
    demo.lk.c.foundation = some "fdn" ∧
    readyB demo (run demoCfg demo (sysUnstake "owner" demo.lk.pend.length ++ demoWait)) = true := by
  refine ⟨demo_reachable, by decide +kernel, by decide +kernel, by decide +kernel,
    careful_of_bool (by decide +kernel), ?_, by decide +kernel, by decide +kernel⟩
  simp [demoWait, Ev.caller]

/-! ## C93 -/

theorem fixed_of_terminating {cfg : Cfg} {a : Lockup.NewArgs} {s : Sys} (h : Inv cfg a s) {u : Nat}
    {st : Lockup.TStatus} (hv : s.lk.c.vesting = .terminating u st) :
    s.lk.fixedUnvested = some (u + s.lk.c.info.terminationWithdrawn) ∧ 0 < u ∧
      u + s.lk.c.info.terminationWithdrawn < two128 := by
  have hfix : Lockup.FixInv s.lk.c s.lk.fixedUnvested := (h.sinv all).fix
  cases hfx : s.lk.fixedUnvested with
  | none =>
    rw [hfx] at hfix
    have := hfix.1
    rw [hv] at this; cases this
  | some F =>
    rw [hfx] at hfix
    obtain ⟨h1, _, ⟨u', st', h2, h3, h4⟩ | ⟨h2, _⟩⟩ := hfix
    · rw [hv] at h2; cases h2
      rw [h4]; exact ⟨rfl, h3, h1⟩
    · rw [hv] at h2; cases h2

/-- **C93.** From every state in which the vesting is terminated with a deficit and no operation runs,
the foundation alone completes the termination with the pool of /repo. It prepares the withdrawal (the
pool unstakes what it reports as staked). Then anything may happen except calls of the foundation:
calls of the owner, of others, and of anybody at the pool. Once the pool is four epochs further and its
account holds the unlocked tokens, the foundation prepares again and withdraws to `r`. If what is on
the account and what the pool reported in the beginning cover the unvested amount and the storage
reserve, the termination is complete: no vesting, no foundation account, and the whole fixed amount is
paid. -/
theorem C93_termination_completes {cfg : Cfg} {a : Lockup.NewArgs} {s : Sys}
    (h : Reachable cfg a s) {f r : AccountId} {u : Nat}
    (hv : s.lk.c.vesting = .terminating u .terminatedWithDeficit)
    (hf : s.lk.c.foundation = some f) (hfs : f ≠ cfg.lockup) (hr : cfg.validAccountId r = true)
    {p : AccountId} {known : Nat} (hs : s.lk.c.staking = some ⟨p, false, known⟩)
    {w : StakingPool.World} (hw : s.pools.get p = some w) (hb : StakingPool.Bounded w) {S : Nat}
    (hS : StakingPool.getAccountStakedBalance w.epoch w.pool cfg.lockup = .ok S)
    (hfunds : u + 35 * 10 ^ 23 ≤ s.lk.bal + reported cfg s p)
    {wait : List Ev} (hcar : Careful cfg (run cfg s (sysTermUnstake f s.lk.pend.length S)) wait)
    (hq : ∀ ev ∈ wait, ev.caller ≠ some f) {w2 : StakingPool.World}
    (hw2 : (run cfg s (sysTermUnstake f s.lk.pend.length S ++ wait)).pools.get p = some w2)
    (hep : w.epoch + 4 ≤ w2.epoch) (hb2 : StakingPool.Bounded w2) {N : Nat}
    (hN : StakingPool.getAccountUnstakedBalance w2.epoch w2.pool cfg.lockup = .ok N)
    (hliq : N ≤ w2.liquid) :
    let s2 := run cfg s (sysTermUnstake f s.lk.pend.length S ++ wait)
    let s3 := run cfg s2 (sysTermFetch f s2.lk.pend.length N)
    let s4 := run cfg s3 (sysTermPay f s3.lk.pend.length r)
    reported cfg s p ≤ N ∧ s.lk.bal ≤ s2.lk.bal ∧
    s2.lk.c.vesting = .terminating u .everythingUnstaked ∧
    s3.lk.c.vesting = .terminating u .readyToWithdraw ∧ s3.lk.bal = s2.lk.bal + N ∧
    s4.lk.c.vesting = .none ∧ s4.lk.c.foundation = none ∧ s4.lk.bal + u = s3.lk.bal ∧
    s4.lk.c.staking = some ⟨p, false, known - N⟩ ∧
    s.lk.fixedUnvested = some s4.lk.paid := by
  intro s2 s3 s4
  have hi := reachable_inv h
  obtain ⟨hpl, hre⟩ := hi.pools p w hw
  obtain ⟨s0, hwi⟩ := StakingPool.reachable_inv hre
  rw [StakingPool.getStaked_total hwi.pool] at hS
  cases hS
  -- unstake
  obtain ⟨w1, r1, hg1, he1, hu1⟩ := sys_termUnstake hi hf hfs hs hv hw hb rfl
  have hc1 : Careful cfg s (sysTermUnstake f s.lk.pend.length
      (StakingPool.stakedOf w.pool cfg.lockup)) := by
    unfold sysTermUnstake; split <;> simp [Careful]
  have hi1 := (inv_run hi hc1).1
  generalize hs1 : run cfg s (sysTermUnstake f s.lk.pend.length
    (StakingPool.stakedOf w.pool cfg.lockup)) = s1 at *
  have hlc1 : s1.lk.c = { s.lk.c with vesting := .terminating u .everythingUnstaked } :=
    (congrArg Lockup.World.c r1).symm
  have hbal1 : s1.lk.bal = s.lk.bal := (congrArg Lockup.World.bal r1).symm
  have hv1 : s1.lk.c.vesting = .terminating u .everythingUnstaked := by rw [hlc1]
  have hf1 : s1.lk.c.foundation = some f := by rw [hlc1]; exact hf
  -- wait
  have hcalm : Lockup.Calm s1.lk.c p known := by
    refine ⟨by rw [hlc1]; exact hs, fun u' st' hv' => ?_⟩
    rw [hv1] at hv'
    cases hv'
    exact .inr (.inl rfl)
  have hquiet : ∀ ev ∈ wait, ev.Quiet s1.lk.c := by
    intro ev hev who hwho
    refine ⟨.inl (by rw [hv1]; rfl), fun e => ?_⟩
    rw [hf1] at e
    cases e
    exact hq ev hev hwho
  obtain ⟨hsame, hbw, w2', hg2, evs, hno, hw2'⟩ := calm_sys_run hi1 hcalm hcar hquiet hg1
  have hi2 := (inv_run hi1 hcar).1
  have hs2 : s2 = run cfg s1 wait := by show run cfg s (_ ++ wait) = _; rw [run_append, hs1]
  have hw2s : s2.pools.get p = some w2 := hw2
  rw [← hs2] at hg2 hi2 hsame hbw
  rw [hbal1] at hbw
  rw [hw2s] at hg2
  have e2 : w2 = w2' := Option.some.inj hg2
  rw [← e2] at hw2'
  have hre1 := (hi1.pools p w1 hg1).2
  obtain ⟨s01, hwi1⟩ := StakingPool.reachable_inv hre1
  obtain ⟨_, hun, hav⟩ := StakingPool.run_bystander hwi1 hno
  rw [← hw2'] at hun hav
  have hsoon := StakingPool.unlock_soon hre1 cfg.lockup
  have hre2 := (hi2.pools p w2 hw2s).2
  obtain ⟨s02, hwi2⟩ := StakingPool.reachable_inv hre2
  rw [StakingPool.getUnstaked_total hwi2.pool] at hN
  cases hN
  have hst2 : s2.lk.c.staking = some ⟨p, false, known⟩ := by
    rw [hsame.staking, hlc1]; exact hs
  have hv2 : s2.lk.c.vesting = .terminating u .everythingUnstaked := by rw [hsame.vesting, hv1]
  have hf2 : s2.lk.c.foundation = some f := by rw [hsame.foundation, hf1]
  -- fetch
  have r3 := sys_termFetch hi2 hf2 hfs hst2 hv2 hw2s hb2 rfl (by omega) hliq
  have hs3 : s3 = run cfg s2 (sysTermFetch f s2.lk.pend.length
    (StakingPool.getAcc w2.pool cfg.lockup).unstaked) := rfl
  rw [← hs3] at r3
  have hc3 : Careful cfg s2 (sysTermFetch f s2.lk.pend.length
      (StakingPool.getAcc w2.pool cfg.lockup).unstaked) := by
    unfold sysTermFetch; split <;> simp [Careful]
  have hi3 : Inv cfg a s3 := (inv_run hi2 hc3).1
  have hl3 : s3.lk.c = { s2.lk.c with
      vesting := .terminating u .readyToWithdraw
      staking := some ⟨p, false, known - (StakingPool.getAcc w2.pool cfg.lockup).unstaked⟩ } :=
    (congrArg Lockup.World.c r3).symm
  have hbal3 : s3.lk.bal = s2.lk.bal + (StakingPool.getAcc w2.pool cfg.lockup).unstaked :=
    (congrArg Lockup.World.bal r3).symm
  have hv3 : s3.lk.c.vesting = .terminating u .readyToWithdraw := congrArg Lockup.Lockup.vesting hl3
  have hf3 : s3.lk.c.foundation = some f := (congrArg Lockup.Lockup.foundation hl3).trans hf2
  have hst3 := congrArg Lockup.Lockup.staking hl3
  have hinfo3 : s3.lk.c.info = s2.lk.c.info := by rw [hl3]
  obtain ⟨hfx3, hu0, hlt3⟩ := fixed_of_terminating hi3 hv3
  have hrep : reported cfg s p ≤ (StakingPool.getAcc w2.pool cfg.lockup).unstaked := by
    rw [reported_eq hw, hun]; exact hu1
  -- pay
  have hbal : u + Lockup.minBalanceForStorage ≤ s3.lk.bal := by
    rw [Lockup.minBalanceForStorage_eq]; omega
  have hpay := sys_termPay (cfg := cfg) (s := s3) hf3 hfs hr hv3 hu0 hbal
  have hs4 : s4 = run cfg s3 (sysTermPay f s3.lk.pend.length r) := rfl
  rw [← hs4] at hpay
  obtain ⟨g1, g2, g3, g4, g5⟩ := Lockup.run_termPay (cfg := cfg.lk) (w := s3.lk) hf3 hfs hr hv3 hu0
    (by omega) hbal
  rw [← hpay] at g1 g2 g3 g4 g5
  have hc4 : Careful cfg s3 (sysTermPay f s3.lk.pend.length r) := by simp [sysTermPay, Careful]
  have hi4 : Inv cfg a s4 := (inv_run hi3 hc4).1
  have hpaid : s4.lk.paid = s4.lk.fixedUnvested.getD 0 :=
    (Lockup.C28_foundation_receives_unvested hi4.reachable).2
      (by show s4.lk.fixedUnvested.isSome = true; rw [g3, hfx3]; rfl) g1
  refine ⟨hrep, hbw, hv2, hv3, hbal3, g1, g2, g5, g4.trans hst3, ?_⟩
  rw [hpaid, g3, hfx3, (fixed_of_terminating hi hv).1]
  have : s3.lk.c.info.terminationWithdrawn = s.lk.c.info.terminationWithdrawn := by
    rw [hinfo3, hsame.withdrawn, hlc1]
  rw [this]
  rfl

/-- The demo after the foundation terminated the vesting, with some income for the storage reserve. -/
def demoTerm : Sys :=
  run demoCfg demo [.call "fdn" 0 (.foundation (.terminateVesting none)), .income (4 * 10 ^ 24)]

/-- What the pool reports as staked by the lockup in `demoTerm`. -/
def demoStakedAmt : Nat :=
  match demoTerm.pools.get "pool" with
  | some w => match StakingPool.getAccountStakedBalance w.epoch w.pool "lockup" with
    | .ok n => n
    | .error _ => 0
  | none => 0

/-- `demoWait` and a call of the owner, which the termination blocks. -/
def termWait : List Ev := demoWait ++ [.call "owner" 0 (.owner .unstakeAll)]

/-- The hypotheses of C93 are met with 5 NEAR at the pool and 10 NEAR unvested. -/
example : Reachable demoCfg Lockup.pollArgs demoTerm ∧
    demoTerm.lk.c.vesting = .terminating (10 * 10 ^ 24) .terminatedWithDeficit ∧
    demoTerm.lk.c.foundation = some "fdn" ∧ "fdn" ≠ demoCfg.lockup ∧
    demoTerm.lk.c.staking = some ⟨"pool", false, 5 * 10 ^ 24⟩ ∧
    0 < demoStakedAmt ∧ demoTerm.lk.bal < 10 * 10 ^ 24 ∧
    10 * 10 ^ 24 + 35 * 10 ^ 23 ≤ demoTerm.lk.bal + reported demoCfg demoTerm "pool" ∧
    Careful demoCfg (run demoCfg demoTerm
      (sysTermUnstake "fdn" demoTerm.lk.pend.length demoStakedAmt)) termWait ∧
    (∀ ev ∈ termWait, ev.caller ≠ some "fdn") ∧
    readyB demoTerm (run demoCfg demoTerm
      (sysTermUnstake "fdn" demoTerm.lk.pend.length demoStakedAmt ++ termWait)) = true := by
  refine ⟨demo_reachable.run (by simp [Careful]), by decide +kernel, by decide +kernel,
    by decide +kernel, by decide +kernel, by decide +kernel, by decide +kernel, by decide +kernel,
    careful_of_bool (by decide +kernel), ?_, by decide +kernel⟩
  simp [termWait, demoWait, Ev.caller]

end Verif.System
