import Verif.System.Props3

/-!
# System property C105: the end of a lockup
-/

namespace Verif.System

open Verif

/-- The owner calls `check_transfers_vote`; the receipt to the poll and the callback run. -/
def sysVote (o : AccountId) (k : Nat) : List Ev :=
  [.call o 0 (.owner .checkTransfersVote), .execute k true .failed, .callback k]

/-- The owner calls `add_full_access_key`; the receipt that adds the key is executed. -/
def sysKey (o : AccountId) (k : Nat) (key : PublicKey) : List Ev :=
  [.call o 0 (.owner (.addFullAccessKey key)), .execute k true .unit]

/-- What the owner does with a lockup that holds all its tokens: ask the poll, if that was not done yet,
then add a key. -/
def sysTakeOver (s : Sys) (key : PublicKey) : List Ev :=
  (match s.lk.c.info.transfers with
    | .disabled _ => sysVote s.lk.c.owner s.lk.pend.length
    | .enabled _ => []) ++ sysKey s.lk.c.owner s.lk.pend.length key

/-- **C105.** The decision of the poll reaches the lockup: when the poll has a result, one call of
`check_transfers_vote` by the owner enables transfers with the time of the decision. Nothing else
changes. -/
theorem C105_poll_result_enables {cfg : Cfg} {s : Sys} {t : Nat} (ho : s.lk.c.owner ≠ cfg.lockup)
    (htr : s.lk.c.info.transfers = .disabled cfg.poll)
    (hterm : ∀ u st, s.lk.c.vesting ≠ .terminating u st)
    (hres : Voting.getResult s.poll.c = some t) (ht : t < 2 ^ 64) :
    run cfg s (sysVote s.lk.c.owner s.lk.pend.length) =
      { s with lk := { s.lk with
          c := { s.lk.c with info := { s.lk.c.info with transfers := .enabled t } }
          pollAnswers := (cfg.poll, t) :: s.lk.pollAnswers } } := by
  have hx : Lockup.exec (Lockup.mkEnv cfg.lk s.lk s.lk.c.owner 0 none) s.lk.c
      (.owner .checkTransfersVote) = .ok (s.lk.c, some ⟨.getResult cfg.poll, some .onPollResult⟩) :=
    (Lockup.C74_vote_exact _ _ _ _).mpr ⟨rfl, rfl, hterm, rfl, cfg.poll, htr, rfl⟩
  have h1 := Lockup.step_call_ok (cfg := cfg.lk) ho hx (Nat.zero_le _)
  obtain ⟨⟨⟨owner, info, vesting, wl, staking, fdn⟩, bal, now, pend, incoming, held, loss, paid, fx,
    qd, ap, pa, fk⟩, pools, swl, poll⟩ := s
  simp only at htr hterm hres ho h1 ⊢
  have hnt : ∀ f, Lockup.newFixed vesting vesting f = f := fun f =>
    Lockup.newFixed_same (by cases hv : vesting <;> simp [Lockup.Vesting.isTerminating])
  simp only [Lockup.commit, Lockup.effPending, hnt, List.nil_append, Nat.add_zero,
    Lockup.effAttached, Lockup.effQueried] at h1
  simp only [sysVote, run, step, h1, execute, Lockup.getElem?_last, Lockup.set_last, runExt, callOf,
    viewOf, Bool.true_eq_false, if_false, if_true, hres, answered, Lockup.runExt]
  have hcb : ∀ W : Lockup.World, Lockup.exec (Lockup.mkEnv cfg.lk W cfg.lk.self 0
      (some (.poll (some t)))) ⟨owner, info, vesting, wl, staking, fdn⟩ (.callback .onPollResult) =
      .ok (⟨owner, { info with transfers := .enabled t }, vesting, wl, staking, fdn⟩, none) := by
    intro W
    obtain ⟨h1, h2⟩ := Lockup.env_self cfg.lk W (.poll (some t))
    have hd : Lockup.decodeOptU64 (some t) = .ok () := require_ok.mpr ht
    have hm : (Lockup.mkEnv cfg.lk W cfg.lk.self 0 (some (.poll (some t)))).result =
      some (.poll (some t)) := rfl
    have he : Lockup.transfersEnabled ⟨owner, info, vesting, wl, staking, fdn⟩ = false := by
      simp only [Lockup.transfersEnabled, htr]
    have hq : Lockup.assertTransfersDisabled ⟨owner, info, vesting, wl, staking, fdn⟩ = .ok () :=
      require_ok.mpr he
    simp only [Lockup.exec, Lockup.execCallback, Lockup.onPollResult, Lockup.callbackPoll, h1, h2, hm,
      hd, hq, ok_bind]
    rfl
  rw [Lockup.step_cb_last rfl (hcb _) (Nat.zero_le _)]
  simp only [Lockup.commit, Lockup.effPending, hnt, Lockup.effQueried, Lockup.effAttached,
    List.nil_append, List.append_nil, Nat.add_zero, Nat.sub_zero]
  rfl

/-- Adding the key, in a state in which nothing is locked. -/
theorem sys_key {cfg : Cfg} {s : Sys} {t : Nat} (key : PublicKey) (ho : s.lk.c.owner ≠ cfg.lockup)
    (htr : s.lk.c.info.transfers = .enabled t)
    (hidle : ∀ si, s.lk.c.staking = some si → si.busy = false)
    (hterm : ∀ u st, s.lk.c.vesting ≠ .terminating u st)
    (hl : ∀ e : Lockup.Env, e.now = s.lk.now → Lockup.getLockedAmount e s.lk.c = .ok 0) :
    run cfg s (sysKey s.lk.c.owner s.lk.pend.length key) =
      { s with lk := { s.lk with fullKey := true } } := by
  have hx : Lockup.exec (Lockup.mkEnv cfg.lk s.lk s.lk.c.owner 0 none) s.lk.c
      (.owner (.addFullAccessKey key)) = .ok (s.lk.c, some ⟨.addFullAccessKey key, none⟩) :=
    (Lockup.C32_add_full_access_key_iff _ _ _ _ _).mpr
      ⟨⟨rfl, rfl, ⟨t, htr⟩, hidle, hterm, hl _ rfl⟩, rfl, rfl⟩
  have h1 := Lockup.step_call_ok (cfg := cfg.lk) ho hx (Nat.zero_le _)
  obtain ⟨⟨⟨owner, info, vesting, wl, staking, fdn⟩, bal, now, pend, incoming, held, loss, paid, fx,
    qd, ap, pa, fk⟩, pools, swl, poll⟩ := s
  simp only at htr hterm ho h1 ⊢
  have hnt : ∀ f, Lockup.newFixed vesting vesting f = f := fun f =>
    Lockup.newFixed_same (by cases hv : vesting <;> simp [Lockup.Vesting.isTerminating])
  simp only [Lockup.commit, Lockup.effPending, hnt, List.nil_append, Nat.add_zero,
    Lockup.effAttached, Lockup.effQueried] at h1
  simp only [sysKey, run, step, h1, execute, Lockup.getElem?_last, Lockup.eraseIdx_last, runExt, callOf,
    viewOf, Bool.true_eq_false, if_false, answered, Lockup.runExt, reduceCtorEq]
  rfl

/-- **C105.** A lockup that waits for the modelled poll, after the poll was decided at time `t`, after the
end of release and vesting: one or two calls of the owner put a full access key on the account. Nothing
else changes: all the tokens that were on the account are still there, now at the free disposal of the
owner. -/
theorem C105_owner_takes_over {cfg : Cfg} {a : Lockup.NewArgs} {s : Sys} {t : Nat}
    (h : Reachable cfg a s) (hv : Lockup.VestingOk cfg.lk (Lockup.argVesting a))
    (ho : a.owner ≠ cfg.lockup) (ha : a.transfers = .disabled cfg.poll)
    (hres : Voting.getResult s.poll.c = some t) (ht : t < 2 ^ 64)
    (hidle : ∀ si, s.lk.c.staking = some si → si.busy = false)
    (hterm : ∀ u st, s.lk.c.vesting ≠ .terminating u st)
    (hrel : Lockup.specMoment t a.lockupDuration a.lockupTimestamp + a.releaseDuration.getD 0 ≤
      s.lk.now)
    (hvest : ∀ vs, s.lk.c.vesting = .schedule vs → vs.finish ≤ s.lk.now) (key : PublicKey) :
    let s' := run cfg s (sysTakeOver s key)
    s'.lk.fullKey = true ∧ s'.lk.bal = s.lk.bal ∧ s'.lk.pend = s.lk.pend ∧
    s'.lk.c = { s.lk.c with info := { s.lk.c.info with transfers := .enabled t } } ∧
    s'.pools = s.pools ∧ s'.wl = s.wl ∧ s'.poll = s.poll := by
  intro s'
  have hoc := owner_const (reachable_inv h)
  rw [← hoc] at ho
  have key1 : ∀ {s : Sys}, Reachable cfg a s → s.lk.c.info.transfers = .enabled t →
      (∀ u st, s.lk.c.vesting ≠ .terminating u st) →
      Lockup.specMoment t a.lockupDuration a.lockupTimestamp + a.releaseDuration.getD 0 ≤ s.lk.now →
      (∀ vs, s.lk.c.vesting = .schedule vs → vs.finish ≤ s.lk.now) →
      ∀ e : Lockup.Env, e.now = s.lk.now → Lockup.getLockedAmount e s.lk.c = .ok 0 := by
    intro s h htr hterm hrel hvest e he
    have h1 := Lockup.C19_locked_amount_end (reachable_inv h).reachable hv e (t := t) htr
      (by rw [he]; exact hrel) (by rw [he]; exact hvest)
    have h2 : Lockup.getLockedAmount e s.lk.c =
      .ok (match s.lk.c.vesting with | .terminating u _ => u | _ => 0) := h1
    rw [h2]
    cases hvv : s.lk.c.vesting with
    | terminating u st => exact absurd hvv (hterm u st)
    | _ => rfl
  cases htr : s.lk.c.info.transfers with
  | enabled t' =>
    obtain ⟨h1, _⟩ := C88_transfers_enabled_by_two_thirds h ha htr
    rw [hres] at h1
    cases h1
    have h2 := sys_key (cfg := cfg) key ho htr hidle hterm (key1 h htr hterm hrel hvest)
    have h3 : s' = { s with lk := { s.lk with fullKey := true } } := by
      show run cfg s (sysTakeOver s key) = _
      simp only [sysTakeOver, htr, List.nil_append]
      exact h2
    rw [h3]
    exact ⟨rfl, rfl, rfl, by simp only [← htr], rfl, rfl, rfl⟩
  | disabled p =>
    have hp : p = cfg.poll := by
      have hi := reachable_inv h
      obtain ⟨w0, evs, h1, _, h2⟩ := hi.ref
      have hinv := Lockup.pollInv_run (cfg := cfg.lk) evs (Lockup.started_sinv h1)
        (Lockup.started_pollInv h1)
      rw [ha, ← h2] at hinv
      rcases hinv.tr with h3 | ⟨p, t', h3, h4, h5⟩
      · have h6 : s.lk.c.info.transfers = .disabled cfg.poll := h3
        rw [htr] at h6; cases h6; rfl
      · have h6 : s.lk.c.info.transfers = .enabled t' := h5
        rw [htr] at h6; cases h6
    subst hp
    have hv1 := C105_poll_result_enables (cfg := cfg) ho htr hterm hres ht
    have hr1 : Reachable cfg a (run cfg s (sysVote s.lk.c.owner s.lk.pend.length)) :=
      h.run (by simp [sysVote, Careful])
    rw [hv1] at hr1
    have h2 := sys_key (cfg := cfg) (s := { s with lk := { s.lk with
          c := { s.lk.c with info := { s.lk.c.info with transfers := .enabled t } }
          pollAnswers := (cfg.poll, t) :: s.lk.pollAnswers } }) key ho rfl hidle hterm
      (key1 hr1 rfl hterm hrel hvest)
    have h3 : s' = { s with lk := { s.lk with
          c := { s.lk.c with info := { s.lk.c.info with transfers := .enabled t } }
          pollAnswers := (cfg.poll, t) :: s.lk.pollAnswers, fullKey := true } } := by
      show run cfg s (sysTakeOver s key) = _
      simp only [sysTakeOver, htr, run_append]
      rw [hv1]
      exact h2
    rw [h3]
    exact ⟨rfl, rfl, rfl, rfl, rfl, rfl, rfl⟩

/-- **C105.** The whole way out, from tokens staked at a pool to a key on the account: in any reachable
state with an idle selected pool and no termination the owner unstakes; whatever the others do meanwhile,
after four epochs (and once the poll is decided and release and vesting are over) the owner withdraws,
leaves the pool and adds a key. Everything that the pool ever reported is on the account then, nothing is
left at the pool. -/
theorem C105_whole_way_out {cfg : Cfg} {a : Lockup.NewArgs} {s : Sys}
    (h : Reachable cfg a s) (hv : Lockup.VestingOk cfg.lk (Lockup.argVesting a))
    (ho : a.owner ≠ cfg.lockup) (ha : a.transfers = .disabled cfg.poll) {p : AccountId} {known : Nat}
    (hs : s.lk.c.staking = some ⟨p, false, known⟩)
    (hterm : ∀ u st, s.lk.c.vesting ≠ .terminating u st)
    {w : StakingPool.World} (hw : s.pools.get p = some w) (hb : StakingPool.Bounded w)
    {wait : List Ev} (hcar : Careful cfg (run cfg s (sysUnstake a.owner s.lk.pend.length)) wait)
    (hq : ∀ ev ∈ wait, ev.caller ≠ some a.owner ∧
      (ev.caller = none ∨ ev.caller ≠ s.lk.c.foundation))
    {w2 : StakingPool.World}
    (hw2 : (run cfg s (sysUnstake a.owner s.lk.pend.length ++ wait)).pools.get p = some w2)
    (hep : w.epoch + 4 ≤ w2.epoch) (hb2 : StakingPool.Bounded w2) {N : Nat}
    (hN : StakingPool.getAccountUnstakedBalance w2.epoch w2.pool cfg.lockup = .ok N)
    (hliq : N ≤ w2.liquid) (hown : StakingPool.getOwnerId w2.pool ≠ cfg.lockup) {t : Nat}
    (hres : Voting.getResult
      (run cfg s (sysUnstake a.owner s.lk.pend.length ++ wait)).poll.c = some t) (ht : t < 2 ^ 64)
    (hrel : Lockup.specMoment t a.lockupDuration a.lockupTimestamp + a.releaseDuration.getD 0 ≤
      (run cfg s (sysUnstake a.owner s.lk.pend.length ++ wait)).lk.now)
    (hvest : ∀ vs, s.lk.c.vesting = .schedule vs →
      vs.finish ≤ (run cfg s (sysUnstake a.owner s.lk.pend.length ++ wait)).lk.now)
    (key : PublicKey) :
    let s2 := run cfg s (sysUnstake a.owner s.lk.pend.length ++ wait)
    let s3 := run cfg s2 (sysFetch a.owner s2.lk.pend.length N)
    let s4 := run cfg s3 (sysLeave a.owner s3.lk.pend.length)
    let s5 := run cfg s4 (sysTakeOver s4 key)
    s5.lk.fullKey = true ∧ s5.lk.c.staking = none ∧ reported cfg s5 p = 0 ∧
    s.lk.bal + reported cfg s p ≤ s5.lk.bal := by
  intro s2 s3 s4 s5
  obtain ⟨g1, g2, g3, g4, g5, g6, g7, g8, g9, g10, g11, g12, g13, g14, g15⟩ :=
    C92_owner_recovers_everything h ho hs hterm hw hb hcar hq hw2 hep hb2 hN hliq hown
  have hc1 : Careful cfg s (sysUnstake a.owner s.lk.pend.length) := by simp [sysUnstake, Careful]
  have hr2 : Reachable cfg a s2 := h.run (careful_append.mpr ⟨hc1, hcar⟩)
  have hr3 : Reachable cfg a s3 := hr2.run (by
    unfold sysFetch
    by_cases hz : N = 0 <;> simp [hz, Careful])
  have hr4 : Reachable cfg a s4 := hr3.run (by simp [sysLeave, Careful])
  have hv4 : s4.lk.c.vesting = s.lk.c.vesting := by
    have := congrArg Lockup.Lockup.vesting g8
    exact this.trans g3
  have hst4 : s4.lk.c.staking = none := congrArg Lockup.Lockup.staking g8
  obtain ⟨k1, k2, k3, k4, k5, k6, k7⟩ := C105_owner_takes_over hr4 hv ho ha (t := t)
    (by show Voting.getResult s4.poll.c = _; rw [g14]; exact hres) ht
    (by intro si hsi; rw [hst4] at hsi; cases hsi)
    (by rw [hv4]; exact hterm)
    (by rw [g12]; exact hrel)
    (by intro vs hvs; rw [g12]; rw [hv4] at hvs; exact hvest vs hvs) key
  refine ⟨k1, ?_, ?_, ?_⟩
  · have := congrArg Lockup.Lockup.staking k4
    exact this.trans hst4
  · have hk5 : s5.pools = s4.pools := k5
    have : reported cfg s5 p = reported cfg s4 p := by unfold reported; rw [hk5]
    rw [this]; exact g9
  · have hk2 : s5.lk.bal = s4.lk.bal := k2
    rw [hk2, g7, g5]
    exact Nat.add_le_add g4 g1

/-- During the wait the poll is decided, time passes. -/
def outWait : List Ev :=
  [.vote "a" 0 (.vote true), .tick 3, .vote "b" 0 (.vote true), .vote "c" 0 (.vote true),
   .tick (10 ^ 5)] ++ demoWait

/-- The hypotheses of C105 are met; the poll is decided and everything vests during the wait. -/
example : Lockup.VestingOk demoCfg.lk (Lockup.argVesting Lockup.pollArgs) ∧
    Reachable demoCfg Lockup.pollArgs demo ∧ Lockup.pollArgs.owner ≠ demoCfg.lockup ∧
    Lockup.pollArgs.transfers = .disabled demoCfg.poll ∧
    demo.lk.c.staking = some ⟨"pool", false, 5 * 10 ^ 24⟩ ∧
    demo.lk.c.vesting.isTerminating = false ∧
    Careful demoCfg (run demoCfg demo (sysUnstake "owner" demo.lk.pend.length)) outWait ∧
    (∀ ev ∈ outWait, ev.caller ≠ some "owner" ∧ (ev.caller = none ∨ ev.caller ≠ some "fdn")) ∧
    demo.lk.c.foundation = some "fdn" ∧
    readyB demo (run demoCfg demo (sysUnstake "owner" demo.lk.pend.length ++ outWait)) = true ∧
    Voting.getResult (run demoCfg demo (sysUnstake "owner" demo.lk.pend.length ++ outWait)).poll.c =
      some 1003 ∧
    Lockup.specMoment 1003 Lockup.pollArgs.lockupDuration Lockup.pollArgs.lockupTimestamp +
        Lockup.pollArgs.releaseDuration.getD 0 ≤
      (run demoCfg demo (sysUnstake "owner" demo.lk.pend.length ++ outWait)).lk.now ∧
    demo.lk.c.vesting = .schedule ⟨100, 2000, 4000⟩ ∧
    4000 ≤ (run demoCfg demo (sysUnstake "owner" demo.lk.pend.length ++ outWait)).lk.now := by
  refine ⟨by show Lockup.Schedule.Valid _; decide +kernel, demo_reachable, by decide +kernel, by decide +kernel, by decide +kernel,
    by decide +kernel, careful_of_bool (by decide +kernel), ?_, by decide +kernel, by decide +kernel,
    by decide +kernel, by decide +kernel, by decide +kernel, by decide +kernel⟩
  simp [outWait, demoWait, Ev.caller]

/-- Before the end nothing of this is possible: the owner asks the poll and for a key, and only gets
transfers enabled. -/
example : (run demoCfg (run demoCfg demo demoVote)
    (sysTakeOver (run demoCfg demo demoVote) "k")).lk.fullKey = false := by decide +kernel

end Verif.System
