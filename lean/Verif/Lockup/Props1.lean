import Verif.Lockup.Demo

/-!
# Lockup properties C19–C23: the locked amount, vesting, transfers of the owner

Views are functions of the environment; `e.now` is the block timestamp.
-/

namespace Verif.Lockup

open Verif

/-! ## C19 -/

/-- **C19.** In every reachable state the view `get_locked_amount` never panics, never goes up with
time and leaves room for what the foundation already took. -/
theorem C19_locked_amount_monotone {cfg : Cfg} {a : NewArgs} {w : World} (h : Reachable cfg a w)
    (hv : VestingOk cfg (argVesting a)) (e1 e2 : Env) (ht : e1.now ≤ e2.now) :
    ∃ l1 l2, getLockedAmount e1 w.c = .ok l1 ∧ getLockedAmount e2 w.c = .ok l2 ∧ l2 ≤ l1 ∧
      l1 + w.c.info.terminationWithdrawn ≤ w.c.info.lockupAmount := by
  have hg := (reachable_good h hv).1
  exact ⟨_, _, getLockedAmount_eq hg, getLockedAmount_eq hg, lockedVal_mono hg ht, lockedVal_le hg⟩

/-- **C19.** Once the release and the vesting have ended, exactly the terminated unvested amount is
locked (0 without a termination). -/
theorem C19_locked_amount_end {cfg : Cfg} {a : NewArgs} {w : World} (h : Reachable cfg a w)
    (hv : VestingOk cfg (argVesting a)) (e : Env) {t : Nat}
    (hen : w.c.info.transfers = .enabled t)
    (hrel : specMoment t a.lockupDuration a.lockupTimestamp + a.releaseDuration.getD 0 ≤ e.now)
    (hvest : ∀ vs, w.c.vesting = .schedule vs → vs.finish ≤ e.now) :
    getLockedAmount e w.c = .ok (match w.c.vesting with | .terminating u _ => u | _ => 0) := by
  have hg := (reachable_good h hv).1
  obtain ⟨w0, evs, hs, rfl⟩ := h
  obtain ⟨_, _, _, c4, c5, c6⟩ := const_run (cfg := cfg) (w := w0) evs
  have hi : (run cfg w0 evs).c.info.lockupDuration = a.lockupDuration ∧
      (run cfg w0 evs).c.info.releaseDuration = a.releaseDuration ∧
      (run cfg w0 evs).c.info.lockupTimestamp = a.lockupTimestamp := by
    obtain ⟨d, b, n, c, hb, hn, rfl⟩ := hs
    obtain ⟨_, _, _, _, _, _, _, g1, g2, g3, _⟩ := new_ok hn
    exact ⟨c4.trans g1, c5.trans g2, c6.trans g3⟩
  obtain ⟨i1, i2, i3⟩ := hi
  generalize run cfg w0 evs = w at *
  rw [getLockedAmount_eq hg]
  have hm := lockupMoment_le_spec w.c.info t
  rw [i1, i3] at hm
  have h1 : lockupMoment w.c.info t ≤ e.now := by omega
  have h2 : unreleasedVal w.c.info.lockupAmount (lockupMoment w.c.info t) e.now
      w.c.info.releaseDuration = 0 := by
    rw [i2]
    cases hr : a.releaseDuration with
    | none => rfl
    | some r =>
      rw [hr] at hrel
      simp only [Option.getD_some] at hrel
      have := satAdd64_le (lockupMoment w.c.info t) r
      simp only [unreleasedVal]
      rw [if_pos (by omega)]
  unfold lockedVal
  simp only [hen]
  rw [if_pos h1, h2]
  unfold lockedUnvestedVal
  cases hve : w.c.vesting with
  | schedule vs =>
    have := hvest vs hve
    simp only [unvestedVal]
    by_cases hc : e.now < vs.cliff
    · have := (hg.sched vs hve).1.cliff_le
      omega
    · rw [if_neg hc, if_pos this]; simp
  | _ => simp

/-- The locked amount does not go up by any event. -/
theorem lockedVal_step {cfg : Cfg} {w : World} (ev : Ev) (hS : SInv w) (hg : Good cfg w.c)
    (hn : NoHash w.c.vesting) :
    lockedVal (step cfg w ev).c (step cfg w ev).now ≤ lockedVal w.c w.now := by
  by_cases htick : ∃ dt, ev = .tick dt
  · obtain ⟨dt, rfl⟩ := htick
    exact lockedVal_mono hg.1 (Nat.le_add_right _ _)
  have hnow : (step cfg w ev).now = w.now := by
    cases ev with
    | tick dt => exact absurd ⟨dt, rfl⟩ htick
    | call who att c =>
      simp only [step, doCall]; (repeat' split) <;> rfl
    | execute i r =>
      have hx := fun p => (runExt_facts cfg w p r).2.2.2.1
      simp only [step, execute]
      split
      · split <;> exact hx _
      · rfl
    | callback i => simp only [step, callback, doCall]; (repeat' split) <;> rfl
    | arrive x => simp only [step]; split <;> rfl
    | income x => rfl
    | poolReward x => rfl
    | poolLoss x => simp only [step]; split <;> rfl
  rw [hnow]
  have hcase := step_case cfg w ev
  generalize step cfg w ev = w' at hcase
  cases hcase with
  | quiet ev w' h1 => rw [h1]
  | owner who c c' eff h1 h2 h3 h4 hr =>
    obtain ⟨g1, g2, _⟩ := ownerRel_facts hr
    exact (lockedVal_congr g1 g2).le
  | foundation who c c' eff h1 h2 h3 hr =>
    exact ((foundation_locked (cfg := cfg) rfl hg hr).2 hn).le
  | execNone i ext r hi => simp only [(runExt_facts cfg w ⟨ext, none, .sent⟩ r).1]; exact le_rfl
  | execSome i ext cb r hi =>
    simp only [(runExt_facts cfg w ⟨ext, some cb, .sent⟩ r).1]; exact le_rfl
  | callbackOk i ext cb r c' eff hi hr =>
    have h2 := (cb_locked hS hi hg hr).2
    show lockedVal c' w.now ≤ _
    omega
  | callbackPanic i ext cb r hi => exact le_rfl

theorem lockedVal_run {cfg : Cfg} {w : World} (evs : List Ev) (hS : SInv w) (hg : Good cfg w.c)
    (hn : NoHash w.c.vesting) :
    lockedVal (run cfg w evs).c (run cfg w evs).now ≤ lockedVal w.c w.now := by
  induction evs generalizing w with
  | nil => exact le_rfl
  | cons ev t ih =>
    exact (ih (sinv_step ev hS) (good_step ev hS hg) (noHash_step ev hn)).trans
      (lockedVal_step ev hS hg hn)

/-- **C19.** Whole histories: whatever happens (owner, foundation, pool, poll, time), the locked
amount of a lockup without a private schedule never goes up. -/
theorem C19_locked_amount_history {cfg : Cfg} {a : NewArgs} {w : World} (h : Reachable cfg a w)
    (hv : VestingOk cfg (argVesting a)) (hn : NoHash (argVesting a)) (evs : List Ev) (e1 e2 : Env)
    (h1 : e1.now = w.now) (h2 : e2.now = (run cfg w evs).now) :
    ∃ l1 l2, getLockedAmount e1 w.c = .ok l1 ∧
      getLockedAmount e2 (run cfg w evs).c = .ok l2 ∧ l2 ≤ l1 := by
  have hg := reachable_good h hv
  have hg' := reachable_good (h.run evs) hv
  have hn' : NoHash w.c.vesting := by
    obtain ⟨w0, l, hs, rfl⟩ := h
    have h0 : NoHash w0.c.vesting := by rw [argVesting_of_started hs]; exact hn
    clear hs hg hg' h1 h2
    induction l generalizing w0 with
    | nil => exact h0
    | cons ev t ih => exact ih _ (noHash_step ev h0)
  refine ⟨_, _, getLockedAmount_eq hg.1, getLockedAmount_eq hg'.1, ?_⟩
  rw [h1, h2]
  exact lockedVal_run evs (reachable_sinv h) hg hn'

/-- the hypotheses are met and the locked amount really moves: 10 NEAR, then 15/39 of it -/
example : (mkEnv demoCfg demoStaked "x" 0 none).now ≤ 2500 := by decide +kernel
example : getLockedAmount (mkEnv demoCfg demoStaked "x" 0 none) demoStaked.c = .ok tenNear := by
  decide +kernel
example : getLockedAmount { mkEnv demoCfg demoStaked "x" 0 none with now := 2500 } demoStaked.c =
    .ok 3846153846153846153846153 := by decide +kernel
example : getLockedAmount { mkEnv demoCfg demoStaked "x" 0 none with now := 4000 } demoStaked.c =
    .ok 0 := by
  have hv : demoStaked.c.vesting = .schedule ⟨100, 2000, 4000⟩ := by decide +kernel
  have h := C19_locked_amount_end (t := 1000) demoStaked_reachable demo_vestingOk
    { mkEnv demoCfg demoStaked "x" 0 none with now := 4000 } (by decide +kernel)
    (by decide +kernel) (by intro vs h; rw [hv] at h; cases h; decide +kernel)
  rw [hv] at h
  exact h
example : NoHash (argVesting demoArgs) := by intro b h; cases h

/-! ## C20 -/

/-- **C20.** The view reports the documented locked amount (timestamps below the last `u64` value;
a release that ends after the range of `u64` timestamps is excluded, see the next theorem). -/
theorem C20_locked_amount_is_documented {cfg : Cfg} {a : NewArgs} {w : World}
    (h : Reachable cfg a w) (hv : VestingOk cfg (argVesting a)) (e : Env)
    (hnow : e.now < two64 - 1) (hr : ReleaseInRange w.c) :
    getLockedAmount e w.c = .ok (specLocked w.c e.now) := by
  have hg := (reachable_good h hv).1
  rw [getLockedAmount_eq hg]
  congr 1
  unfold lockedVal specLocked
  cases ht : w.c.info.transfers with
  | disabled p => rfl
  | enabled t =>
    simp only
    obtain ⟨h1, h2⟩ := lockupMoment_spec (i := w.c.info) (t := t) hnow
    by_cases hm : lockupMoment w.c.info t ≤ e.now
    · rw [if_pos hm, if_neg (by have := h1.mp hm; omega), h2 hm, lockedUnvestedVal_spec]
      congr 2
      cases hrel : w.c.info.releaseDuration with
      | none => rfl
      | some r =>
        have := hr t r ht hrel
        have hs : satAdd64 (specMoment t w.c.info.lockupDuration w.c.info.lockupTimestamp) r =
            specMoment t w.c.info.lockupDuration w.c.info.lockupTimestamp + r := by
          unfold satAdd64; omega
        simp only [unreleasedVal, specUnreleased, hs]
        split <;> split <;> first | rfl | omega
    · rw [if_neg hm, if_pos (by have := mt h1.mpr hm; omega)]

/-- **C20.** Without the range condition the contract never locks more than documented. -/
theorem C20_never_more_than_documented {cfg : Cfg} {a : NewArgs} {w : World}
    (h : Reachable cfg a w) (hv : VestingOk cfg (argVesting a)) (e : Env)
    (hnow : e.now < two64 - 1) :
    ∃ l, getLockedAmount e w.c = .ok l ∧ l ≤ specLocked w.c e.now := by
  have hg := (reachable_good h hv).1
  refine ⟨_, getLockedAmount_eq hg, ?_⟩
  unfold lockedVal specLocked
  cases ht : w.c.info.transfers with
  | disabled p => exact le_rfl
  | enabled t =>
    simp only
    obtain ⟨h1, h2⟩ := lockupMoment_spec (i := w.c.info) (t := t) hnow
    by_cases hm : lockupMoment w.c.info t ≤ e.now
    · rw [if_pos hm, if_neg (by have := h1.mp hm; omega), h2 hm, lockedUnvestedVal_spec]
      have : unreleasedVal w.c.info.lockupAmount
            (specMoment t w.c.info.lockupDuration w.c.info.lockupTimestamp) e.now
            w.c.info.releaseDuration ≤
          specUnreleased w.c.info.lockupAmount
            (specMoment t w.c.info.lockupDuration w.c.info.lockupTimestamp) e.now
            w.c.info.releaseDuration := by
        cases w.c.info.releaseDuration with
        | none => exact le_rfl
        | some r =>
          have hs := satAdd64_le (specMoment t w.c.info.lockupDuration w.c.info.lockupTimestamp) r
          simp only [unreleasedVal, specUnreleased]
          split
          · omega
          · rw [if_pos (by omega)]
            exact Nat.div_le_div_right (Nat.mul_le_mul_left _ (by omega))
      omega
    · rw [if_neg hm, if_pos (by have := mt h1.mpr hm; omega)]

example : ReleaseInRange demoStaked.c := by
  intro t r h1 h2
  have e1 : demoStaked.c.info.transfers = .enabled 1000 := by decide +kernel
  have e2 : demoStaked.c.info.releaseDuration = some 1000 := by decide +kernel
  rw [e1] at h1; rw [e2] at h2
  cases h1; cases h2
  decide +kernel
/-- half of the release is over, vesting has not passed the cliff: everything is still locked -/
example : specLocked demoStaked.c 1999 = tenNear := by decide +kernel

/-! ## C21 -/

/-- **C21.** The unvested amount of a valid schedule: everything before the cliff, nothing from the
end on, in between the exact linear share rounded down; it never panics and never goes up. -/
theorem C21_vesting_schedule {e : Env} {s : Lockup} {vs : Schedule} (hv : vs.Valid)
    (hf : vs.finish < two64) (ha : s.info.lockupAmount < two128)
    (hs : s.vesting = .schedule vs ∨ ∃ b, s.vesting = .hash b) :
    ∃ u, getUnvestedAmount e s vs = .ok u ∧ u ≤ s.info.lockupAmount ∧
      (e.now < vs.cliff → u = s.info.lockupAmount) ∧
      (vs.finish ≤ e.now → u = 0) ∧
      (vs.cliff ≤ e.now → e.now < vs.finish →
        u * (vs.finish - vs.start) ≤ s.info.lockupAmount * (vs.finish - e.now) ∧
        s.info.lockupAmount * (vs.finish - e.now) < (u + 1) * (vs.finish - vs.start)) ∧
      (∀ e' : Env, e.now ≤ e'.now → ∃ u', getUnvestedAmount e' s vs = .ok u' ∧ u' ≤ u) := by
  have hx : ∀ e' : Env, getUnvestedAmount e' s vs =
      .ok (unvestedVal s.info.lockupAmount e'.now vs) := by
    intro e'
    unfold getUnvestedAmount
    rcases hs with hs | ⟨b, hs⟩ <;> simp only [hs] <;> exact scheduleUnvested_eq ha hv hf
  refine ⟨_, hx e, unvestedVal_le hv, ?_, ?_, ?_, fun e' he => ⟨_, hx e', unvestedVal_mono hv he⟩⟩
  · intro h; unfold unvestedVal; rw [if_pos h]
  · intro h
    have := hv.cliff_le
    unfold unvestedVal; rw [if_neg (by omega), if_pos h]
  · intro h1 h2
    have hp := hv.pos
    unfold unvestedVal
    rw [if_neg (by omega), if_neg (by omega)]
    refine ⟨Nat.div_mul_le_self _ _, ?_⟩
    have := Nat.lt_div_mul_add (a := s.info.lockupAmount * (vs.finish - e.now))
      (b := vs.finish - vs.start) (by omega)
    rw [Nat.add_mul, Nat.one_mul]
    exact this

example : Schedule.Valid ⟨100, 2000, 4000⟩ ∧ (4000 : Nat) < two64 := by
  constructor <;> decide +kernel

/-! ## C22 -/

/-- A lockup that starts vesting after its cliff, created at time 1000. -/
def badArgs : NewArgs :=
  { demoArgs with vesting := some (.schedule ⟨1500, 500, 2000⟩) }

/-- A lockup whose vesting starts and ends at the same time, after the cliff. -/
def zeroArgs : NewArgs :=
  { demoArgs with vesting := some (.schedule ⟨9000, 500, 9000⟩) }

/-- **C22 is false of the code**: `new` accepts invalid schedules. With the cliff before the start
the unvested amount is twice the lockup amount, so that the foundation may claim more than was
locked; with equal start and end the views divide by zero. (`VestingSchedule::assert_valid`,
lockup/src/types.rs:111-124, is never called.) -/
theorem C22_invalid_schedule_accepted_refuted :
    (∃ w0, Started demoCfg badArgs w0 ∧ ¬ Schedule.Valid ⟨1500, 500, 2000⟩ ∧
      getUnvestedAmount (mkEnv demoCfg w0 "x" 0 none) w0.c ⟨1500, 500, 2000⟩ =
        .ok (2 * w0.c.info.lockupAmount) ∧ 0 < w0.c.info.lockupAmount ∧
      terminatedUnvested
        (step demoCfg w0 (.call "fdn" 0 (.foundation (.terminateVesting none)))).c =
          2 * w0.c.info.lockupAmount) ∧
    (∃ w0, Started demoCfg zeroArgs w0 ∧
      getLockedAmount { mkEnv demoCfg w0 "x" 0 none with now := 5000 } w0.c =
        .error "division by zero") := by
  refine ⟨⟨startOf badArgs, started_startOf (by decide +kernel), ?_⟩,
    ⟨startOf zeroArgs, started_startOf (by decide +kernel), ?_⟩⟩
  · refine ⟨by decide +kernel, ?_, ?_, ?_⟩ <;> decide +kernel
  · decide +kernel

/-- **C22, partial**: what `new` does guarantee. It stores exactly the given schedule, with values in
the range of `u64`; and if the schedule passes the (uncalled) `assert_valid` then in every later
state and at every time the unvested amount is at most the lockup amount and the views of the locked
amount do not trap. Missing: `new` does not reject the other schedules. -/
theorem C22_valid_schedule_is_safe_partial {cfg : Cfg} {a : NewArgs} {w0 : World} {vs : Schedule}
    (h : Started cfg a w0) (ha : a.vesting = some (.schedule vs)) :
    w0.c.vesting = .schedule vs ∧ vs.start < two64 ∧ vs.cliff < two64 ∧ vs.finish < two64 ∧
    (vs.start ≤ vs.cliff → vs.cliff ≤ vs.finish → vs.start < vs.finish → ∀ evs e,
      (∃ u, getUnvestedAmount e (run cfg w0 evs).c vs = .ok u ∧
        u ≤ (run cfg w0 evs).c.info.lockupAmount) ∧
      (∃ l, getLockedAmount e (run cfg w0 evs).c = .ok l ∧
        l ≤ (run cfg w0 evs).c.info.lockupAmount)) := by
  have hve : argVesting a = .schedule vs := by unfold argVesting; rw [ha]
  have h0 : w0.c.vesting = .schedule vs := by rw [argVesting_of_started h, hve]
  have hrange : vs.start < two64 ∧ vs.cliff < two64 ∧ vs.finish < two64 := by
    obtain ⟨d, b, n, c, hb, hn, rfl⟩ := h
    obtain ⟨_, _, _, _, _, _, _, _, _, _, _, g, _⟩ := new_ok hn
    exact g vs h0
  refine ⟨h0, hrange.1, hrange.2.1, hrange.2.2, ?_⟩
  intro v1 v2 v3 evs e
  have hV : vs.Valid := ⟨v1, v2, v3⟩
  have hok : VestingOk cfg (argVesting a) := by rw [hve]; exact hV
  have hg := (reachable_good ⟨w0, evs, h, rfl⟩ hok).1
  refine ⟨?_, ⟨_, getLockedAmount_eq hg, by have := lockedVal_le (now := e.now) hg; omega⟩⟩
  have hw := hg.wle
  unfold terminatedUnvested at hw
  unfold getUnvestedAmount
  cases hc : (run cfg w0 evs).c.vesting with
  | none => exact ⟨0, rfl, Nat.zero_le _⟩
  | hash b => exact ⟨_, scheduleUnvested_eq hg.amt hV hrange.2.2, unvestedVal_le hV⟩
  | schedule v => exact ⟨_, scheduleUnvested_eq hg.amt hV hrange.2.2, unvestedVal_le hV⟩
  | terminating u st =>
    simp only [hc] at hw
    exact ⟨u, rfl, by omega⟩

example : demoArgs.vesting = some (.schedule ⟨100, 2000, 4000⟩) := rfl

/-! ## C23 -/

theorem minBalanceForStorage_eq : minBalanceForStorage = 35 * 10 ^ 23 := by
  unfold minBalanceForStorage; rfl

/-- **C23.** Exactly when a transfer succeeds: called by the owner without deposit, transfers
enabled, no pool operation running, no termination; and the amount leaves the locked amount covered by
account balance plus known deposit, and the storage reserve of 3.5 NEAR on the account. -/
theorem C23_transfer_iff (e : Env) (s s' : Lockup) (eff : Option Eff) (x : Nat)
    (receiver : AccountId) :
    exec e s (.owner (.transfer x receiver)) = .ok (s', eff) ↔
      (e.predecessor = s.owner ∧ e.attachedDeposit = 0 ∧ 0 < x ∧ x < two128 ∧
        e.validAccountId receiver = true ∧ (∃ t, s.info.transfers = .enabled t) ∧
        (∀ si, s.staking = some si → si.busy = false) ∧ (∀ u st, s.vesting ≠ .terminating u st) ∧
        e.accountBalance + knownDeposited s < two128 ∧
        (∃ l, getLockedAmount e s = .ok l ∧ l + x ≤ e.accountBalance + knownDeposited s) ∧
        x + 35 * 10 ^ 23 ≤ e.accountBalance) ∧
      s' = s ∧ eff = some ⟨.transfer receiver x, none⟩ := by
  rw [← minBalanceForStorage_eq]
  have hen : transfersEnabled s = true ↔ ∃ t, s.info.transfers = .enabled t := by
    unfold transfersEnabled; cases s.info.transfers <;> simp
  have hterm : s.vesting.isTerminating = false ↔ ∀ u st, s.vesting ≠ .terminating u st := by
    unfold Vesting.isTerminating; cases s.vesting <;> simp
  have hidle : assertNoStakingOrIdle s = .ok () ↔ ∀ si, s.staking = some si → si.busy = false := by
    unfold assertNoStakingOrIdle
    cases hs : s.staking <;> simp [pure_ok]
  simp only [exec, execOwner, transfer, bind_ok, notPayable_ok, decodeU128_ok, assertOwner_ok,
    require_ok, assertTransfersEnabled_ok, assertNoTermination_ok, pure_ok, Prod.mk.injEq,
    getLiquidOwnersBalance, getOwnersBalance, addU128_ok, getAccountBalance]
  constructor
  · rintro ⟨_, h1, _, h2, _, h3, _, h4, _, h5, _, h6, _, h7, _, h8, l, ⟨o, ⟨t, ⟨h9, rfl⟩, L, h10,
      rfl⟩, rfl⟩, _, h11, rfl, rfl⟩
    refine ⟨⟨h3, h1, h4, h2, h5, hen.mp h6, hidle.mp h7, hterm.mp h8, h9, ⟨L, h10, by omega⟩,
      by omega⟩, rfl, rfl⟩
  · rintro ⟨⟨h3, h1, h4, h2, h5, h6, h7, h8, h9, ⟨L, h10, h11⟩, h12⟩, rfl, rfl⟩
    exact ⟨(), h1, (), h2, (), h3, (), h4, (), h5, (), hen.mpr h6, (), hidle.mpr h7, (),
      hterm.mpr h8, _, ⟨_, ⟨_, ⟨h9, rfl⟩, L, h10, rfl⟩, rfl⟩, (), by omega, rfl, rfl⟩

/-- **C23.** In a history: if a transfer call takes effect then afterwards the account still holds
the storage reserve, and account plus known staking deposit still cover the locked amount. -/
theorem C23_owner_cannot_transfer_locked {cfg : Cfg} {w : World} {who receiver : AccountId}
    {att x : Nat} (hne : step cfg w (.call who att (.owner (.transfer x receiver))) ≠ w) :
    let w' := step cfg w (.call who att (.owner (.transfer x receiver)))
    who = w.c.owner ∧ w'.c = w.c ∧ w'.bal + x = w.bal ∧ 35 * 10 ^ 23 ≤ w'.bal ∧
    ∃ l, getLockedAmount (mkEnv cfg w' who 0 none) w'.c = .ok l ∧
      l ≤ w'.bal + knownDeposited w'.c := by
  have hcall : step cfg w (.call who att (.owner (.transfer x receiver))) =
      if who = cfg.self then w else doCall cfg w who att none (.owner (.transfer x receiver)) := rfl
  rw [hcall] at hne ⊢
  by_cases hw : who = cfg.self
  · rw [if_pos hw] at hne; exact absurd rfl hne
  rw [if_neg hw] at hne ⊢
  rcases doCall_cases cfg w who att none (.owner (.transfer x receiver)) with
    ⟨hd, _⟩ | ⟨c', eff, hx, ha, hd⟩
  · exact absurd hd hne
  · rw [hd]
    obtain ⟨⟨h1, h2, h3, _, _, _, _, _, _, ⟨l, hl, h4⟩, h5⟩, rfl, rfl⟩ :=
      (C23_transfer_iff _ _ _ _ _ _).mp hx
    have h0 : att = 0 := h2
    subst h0
    have h5' : x + 35 * 10 ^ 23 ≤ w.bal + 0 := h5
    have h4' : l + x ≤ w.bal + 0 + knownDeposited w.c := h4
    refine ⟨h1, rfl, ?_, ?_, l, hl, ?_⟩ <;>
      simp only [commit, effAttached, Ext.attached] <;> omega

/-- One NEAR of liquid tokens can be transferred at time 3900 and no longer 5 NEAR. -/
example : (exec (mkEnv demoCfg { demoStaked with now := 3900 } "owner" 0 none) demoStaked.c
    (.owner (.transfer 1000000000000000000000000 "bob"))).toBool = true := by decide +kernel
example : step demoCfg { demoStaked with now := 3900 }
    (.call "owner" 0 (.owner (.transfer 1000000000000000000000000 "bob"))) ≠
      { demoStaked with now := 3900 } := by
  intro h
  have : (step demoCfg { demoStaked with now := 3900 }
    (.call "owner" 0 (.owner (.transfer 1000000000000000000000000 "bob")))).bal = demoStaked.bal := by
    rw [h]
  revert this
  decide +kernel

end Verif.Lockup
