import Verif.System.Prompt

/-!
# System property C115: the way out of a pool takes four epochs

C92, C93, C105 and C109 assume that the account of the pool holds the unlocked tokens after the wait. Here
this follows from the two rules of the runtime (C114), whatever the other delegators of the pool did.
-/

namespace Verif.System

open Verif

/-- **C115 (the owner).** A lockup is idle with a selected pool of /repo and no termination. The owner calls
`unstake_all`; then anything may happen except calls of the owner and the foundation: all other delegators may
leave the pool, come back, or the pool may be paused. Four epochs later, if the runtime has kept its two rules
at the pool, the owner withdraws everything the pool had reported and leaves the pool. -/
theorem C115_owner_out_after_four_epochs {cfg : Cfg} {a : Lockup.NewArgs} {s : Sys}
    (h : Reachable cfg a s) (ho : a.owner ≠ cfg.lockup) {p : AccountId} {known : Nat}
    (hs : s.lk.c.staking = some ⟨p, false, known⟩)
    (hterm : ∀ u st, s.lk.c.vesting ≠ .terminating u st)
    {w0 w : StakingPool.World} {hist : List StakingPool.Ev} (h0 : StakingPool.Started (cfg.pool p) w0)
    (hlife : w = StakingPool.run (cfg.pool p) w0 hist)
    (hw : s.pools.get p = some w) (hb : StakingPool.Bounded w)
    {wait : List Ev} (hcar : Careful cfg (run cfg s (sysUnstake a.owner s.lk.pend.length)) wait)
    (hq : ∀ ev ∈ wait, ev.caller ≠ some a.owner ∧
      (ev.caller = none ∨ ev.caller ≠ s.lk.c.foundation))
    {w2 : StakingPool.World}
    (hw2 : (run cfg s (sysUnstake a.owner s.lk.pend.length ++ wait)).pools.get p = some w2)
    (hrules : RuntimeRules (cfg.pool p) w0
      (hist ++ poolHist cfg p s (sysUnstake a.owner s.lk.pend.length ++ wait)))
    (hep : w.epoch + 4 ≤ w2.epoch) (hb2 : StakingPool.Bounded w2) {N : Nat}
    (hN : StakingPool.getAccountUnstakedBalance w2.epoch w2.pool cfg.lockup = .ok N)
    (hown : StakingPool.getOwnerId w2.pool ≠ cfg.lockup) :
    let s2 := run cfg s (sysUnstake a.owner s.lk.pend.length ++ wait)
    let s3 := run cfg s2 (sysFetch a.owner s2.lk.pend.length N)
    let s4 := run cfg s3 (sysLeave a.owner s3.lk.pend.length)
    reported cfg s p ≤ N ∧ s.lk.bal + N ≤ s3.lk.bal ∧ s3.lk.bal = s2.lk.bal + N ∧
    s4.lk.bal = s3.lk.bal ∧ s4.lk.c = { s2.lk.c with staking := none } ∧ reported cfg s4 p = 0 := by
  intro s2 s3 s4
  have hliq := owner_liquid h ho hs hterm h0 hlife hw hb hcar hq hw2 hrules hep hb2 hN
  obtain ⟨g1, _, _, g4, g5, _, g7, g8, g9, _⟩ := C92_owner_recovers_everything h ho hs hterm hw hb hcar hq
    hw2 hep hb2 hN hliq hown
  exact ⟨g1, by rw [g5]; exact Nat.add_le_add_right g4 _, g5, g7, g8, g9⟩

/-- **C115 (the whole way out).** The same with the poll, release and vesting over after the wait: the owner
ends with a full access key to an account that holds everything the pool had reported. -/
theorem C115_whole_way_out {cfg : Cfg} {a : Lockup.NewArgs} {s : Sys}
    (h : Reachable cfg a s) (hv : Lockup.VestingOk cfg.lk (Lockup.argVesting a))
    (ho : a.owner ≠ cfg.lockup) (ha : a.transfers = .disabled cfg.poll) {p : AccountId} {known : Nat}
    (hs : s.lk.c.staking = some ⟨p, false, known⟩)
    (hterm : ∀ u st, s.lk.c.vesting ≠ .terminating u st)
    {w0 w : StakingPool.World} {hist : List StakingPool.Ev} (h0 : StakingPool.Started (cfg.pool p) w0)
    (hlife : w = StakingPool.run (cfg.pool p) w0 hist)
    (hw : s.pools.get p = some w) (hb : StakingPool.Bounded w)
    {wait : List Ev} (hcar : Careful cfg (run cfg s (sysUnstake a.owner s.lk.pend.length)) wait)
    (hq : ∀ ev ∈ wait, ev.caller ≠ some a.owner ∧
      (ev.caller = none ∨ ev.caller ≠ s.lk.c.foundation))
    {w2 : StakingPool.World}
    (hw2 : (run cfg s (sysUnstake a.owner s.lk.pend.length ++ wait)).pools.get p = some w2)
    (hrules : RuntimeRules (cfg.pool p) w0
      (hist ++ poolHist cfg p s (sysUnstake a.owner s.lk.pend.length ++ wait)))
    (hep : w.epoch + 4 ≤ w2.epoch) (hb2 : StakingPool.Bounded w2) {N : Nat}
    (hN : StakingPool.getAccountUnstakedBalance w2.epoch w2.pool cfg.lockup = .ok N)
    (hown : StakingPool.getOwnerId w2.pool ≠ cfg.lockup) {t : Nat}
    (hres : Voting.getResult
      (run cfg s (sysUnstake a.owner s.lk.pend.length ++ wait)).poll.c = some t) (ht : t < 2 ^ 64)
    (hrel : Lockup.specMoment t a.lockupDuration a.lockupTimestamp + a.releaseDuration.getD 0 ≤
      (run cfg s (sysUnstake a.owner s.lk.pend.length ++ wait)).lk.now)
    (hvest : ∀ vs, s.lk.c.vesting = .schedule vs →
      vs.finish ≤ (run cfg s (sysUnstake a.owner s.lk.pend.length ++ wait)).lk.now)
    (key : PublicKey) :
    let s2 := run cfg s (sysUnstake a.owner s.lk.pend.length ++ wait)
    let s3 := run cfg s2 (sysFetch a.owner s2.lk.pend.length N)
    let s4 := run cfg s3 (sysLeave a.owner s3.lk.pend.length)
    let s5 := run cfg s4 (sysTakeOver s4 key)
    s5.lk.fullKey = true ∧ s5.lk.c.staking = none ∧ reported cfg s5 p = 0 ∧
    s.lk.bal + reported cfg s p ≤ s5.lk.bal := by
  intro s2 s3 s4 s5
  have hliq := owner_liquid h ho hs hterm h0 hlife hw hb hcar hq hw2 hrules hep hb2 hN
  exact C105_whole_way_out h hv ho ha hs hterm hw hb hcar hq hw2 hep hb2 hN hliq hown hres ht hrel hvest key

/-- **C115 (the foundation).** The same for a termination of the vesting with a deficit: four epochs after the
first preparation, whatever the owner, the others and all delegators of the pool did, the foundation gets the
whole unvested amount, if the runtime has kept its two rules at the pool. -/
theorem C115_termination_after_four_epochs {cfg : Cfg} {a : Lockup.NewArgs} {s : Sys}
    (h : Reachable cfg a s) {f r : AccountId} {u : Nat}
    (hv : s.lk.c.vesting = .terminating u .terminatedWithDeficit)
    (hf : s.lk.c.foundation = some f) (hfs : f ≠ cfg.lockup) (hr : cfg.validAccountId r = true)
    {p : AccountId} {known : Nat} (hs : s.lk.c.staking = some ⟨p, false, known⟩)
    {w0 w : StakingPool.World} {hist : List StakingPool.Ev} (h0 : StakingPool.Started (cfg.pool p) w0)
    (hlife : w = StakingPool.run (cfg.pool p) w0 hist)
    (hw : s.pools.get p = some w) (hb : StakingPool.Bounded w) {S : Nat}
    (hS : StakingPool.getAccountStakedBalance w.epoch w.pool cfg.lockup = .ok S)
    (hfunds : u + 35 * 10 ^ 23 ≤ s.lk.bal + reported cfg s p)
    {wait : List Ev} (hcar : Careful cfg (run cfg s (sysTermUnstake f s.lk.pend.length S)) wait)
    (hq : ∀ ev ∈ wait, ev.caller ≠ some f) {w2 : StakingPool.World}
    (hw2 : (run cfg s (sysTermUnstake f s.lk.pend.length S ++ wait)).pools.get p = some w2)
    (hrules : RuntimeRules (cfg.pool p) w0
      (hist ++ poolHist cfg p s (sysTermUnstake f s.lk.pend.length S ++ wait)))
    (hep : w.epoch + 4 ≤ w2.epoch) (hb2 : StakingPool.Bounded w2) {N : Nat}
    (hN : StakingPool.getAccountUnstakedBalance w2.epoch w2.pool cfg.lockup = .ok N) :
    let s2 := run cfg s (sysTermUnstake f s.lk.pend.length S ++ wait)
    let s3 := run cfg s2 (sysTermFetch f s2.lk.pend.length N)
    let s4 := run cfg s3 (sysTermPay f s3.lk.pend.length r)
    s4.lk.c.vesting = .none ∧ s4.lk.c.foundation = none ∧ s4.lk.bal + u = s2.lk.bal + N ∧
    reported cfg s p ≤ N ∧ s.lk.fixedUnvested = some s4.lk.paid := by
  intro s2 s3 s4
  have hliq := foundation_liquid h hv hf hfs hs h0 hlife hw hb hS hcar hq hw2 hrules hep hb2 hN
  obtain ⟨g1, _, _, _, g5, g6, g7, g8, _, g10⟩ :=
    C93_termination_completes h hv hf hfs hr hs hw hb hS hfunds hcar hq hw2 hep hb2 hN hliq
  exact ⟨g6, g7, by rw [g8, g5], g1, g10⟩

/-- **C115 (rewards).** The same for rewards that the owner takes out before the tokens are unlocked: four
epochs after unstaking `x`, if the runtime has kept its two rules at the pool, the owner withdraws and
transfers exactly `x`. -/
theorem C115_rewards_after_four_epochs {cfg : Cfg} {a : Lockup.NewArgs} {s : Sys} (h : Reachable cfg a s)
    (hv : Lockup.VestingOk cfg.lk (Lockup.argVesting a))
    (ho : s.lk.c.owner ≠ cfg.lockup) {p : AccountId} {known : Nat}
    (hs : s.lk.c.staking = some ⟨p, false, known⟩)
    (hterm : ∀ u st, s.lk.c.vesting ≠ .terminating u st)
    {t : Nat} (ht : s.lk.c.info.transfers = .enabled t)
    (hamount : 35 * 10 ^ 23 ≤ s.lk.c.info.lockupAmount)
    {w0 w : StakingPool.World} {hist : List StakingPool.Ev} (h0 : StakingPool.Started (cfg.pool p) w0)
    (hlife : w = StakingPool.run (cfg.pool p) w0 hist)
    (hw : s.pools.get p = some w) (hb : StakingPool.Bounded w) {S : Nat}
    (hS : StakingPool.getAccountStakedBalance w.epoch w.pool cfg.lockup = .ok S)
    {L : Nat} (hL : Lockup.getLockedAmount (Lockup.mkEnv cfg.lk s.lk s.lk.c.owner 0 none) s.lk.c = .ok L)
    {x : Nat} (hx0 : 0 < x) (hxS : x ≤ S) (hxL : x + L ≤ s.lk.bal + reported cfg s p)
    {wait : List Ev}
    (hcar : Careful cfg (run cfg s (sysUnstakeRewards s.lk.c.owner s.lk.pend.length x)) wait)
    (hq : ∀ ev ∈ wait, ev.caller ≠ some s.lk.c.owner ∧
      (ev.caller = none ∨ ev.caller ≠ s.lk.c.foundation))
    {w2 : StakingPool.World}
    (hw2 : (run cfg s (sysUnstakeRewards s.lk.c.owner s.lk.pend.length x ++ wait)).pools.get p = some w2)
    (hrules : RuntimeRules (cfg.pool p) w0
      (hist ++ poolHist cfg p s (sysUnstakeRewards s.lk.c.owner s.lk.pend.length x ++ wait)))
    (hep : w.epoch + 4 ≤ w2.epoch) (hb2 : StakingPool.Bounded w2)
    {r : AccountId} (hr : cfg.validAccountId r = true)
    (hsum : (run cfg s (sysUnstakeRewards s.lk.c.owner s.lk.pend.length x ++ wait)).lk.bal +
      reported cfg s p < two128) :
    let s2 := run cfg s (sysUnstakeRewards s.lk.c.owner s.lk.pend.length x ++ wait)
    let s3 := run cfg s2 (sysCashOut s.lk.c.owner s2.lk.pend.length x r)
    s3.lk = { s2.lk with
      c := { s2.lk.c with staking := some ⟨p, false, reported cfg s p - x⟩ }
      pend := s2.lk.pend ++ [⟨.transfer r x, none, .sent⟩] } ∧
    reported cfg s p ≤ reported cfg s3 p + x := by
  intro s2 s3
  have hR : reported cfg s p < two128 := by omega
  have hliq := rewards_liquid h ho hs hterm h0 hlife hw hb hS hx0 hxS hR hcar hq hw2 hrules hep hb2
  obtain ⟨_, g2, g3, _⟩ := C109_owner_takes_rewards h hv ho hs hterm ht hamount hw hb hS hL hx0 hxS hxL hcar
    hq hw2 hep hb2 hliq hr hsum
  exact ⟨g2, g3⟩

/-! ## A history in which everybody leaves -/

/-- The system when the pool has just been created. -/
def outStart : Sys := run demoCfg (startOf Lockup.pollArgs) (demoEvs.take 1)

/-- The pool at that time. -/
def outPool : StakingPool.World := (outStart.pools.get "pool").getD StakingPool.demo0

/-- What happened at the pool until `demo`. -/
def outHist : List StakingPool.Ev := poolHist demoCfg "pool" outStart (demoEvs.drop 1)

theorem outPool_started : StakingPool.Started (demoCfg.pool "pool") outPool ∧
    outStart.pools.get "pool" = some outPool := by
  have h : (StakingPool.new (StakingPool.initEnv (demoCfg.pool "pool") "factory" (30 * 10 ^ 24) 7) false
      "boss" "key" ⟨1, 10⟩).isOk = true := by decide +kernel
  obtain ⟨⟨q, effs⟩, h⟩ := StakingPool.isOk_iff.mp h
  have hg : outStart.pools.get "pool" = some (StakingPool.initWorld q effs (30 * 10 ^ 24) 7) := by
    show (create demoCfg (startOf Lockup.pollArgs) "pool" "factory" "boss" "key" ⟨1, 10⟩ (30 * 10 ^ 24)
      7).pools.get "pool" = _
    unfold create
    rw [if_neg (by decide +kernel), if_pos (by decide +kernel), h]
    exact UMap.get_insert_self ..
  have he : outPool = StakingPool.initWorld q effs (30 * 10 ^ 24) 7 := by unfold outPool; rw [hg]; rfl
  rw [he]
  exact ⟨⟨"factory", "boss", "key", ⟨1, 10⟩, 30 * 10 ^ 24, 7, q, effs, by decide +kernel, by decide +kernel, h, rfl⟩, hg⟩

/-- The pool of `demo` and its history. -/
theorem demo_life : demo.pools.get "pool" =
    some (StakingPool.run (demoCfg.pool "pool") outPool outHist) := by
  have h := pool_hist_run (cfg := demoCfg) (p := "pool") (by decide) outPool_started.2 (demoEvs.drop 1)
  rw [show run demoCfg outStart (demoEvs.drop 1) = demo from rfl] at h
  exact h

/-- The runtime catches up with five stake actions, Alice leaves the pool as well, four epochs pass, a reward
arrives in between, and the runtime unlocks `x`. -/
def outDays (x : Nat) : List Ev :=
  List.replicate 5 (.pool "pool" (.deliver 0 true)) ++
  [.pool "pool" (.call "alice" 0 .unstakeAll), .pool "pool" (.deliver 5 true), .pool "pool" (.epochs 2),
   .pool "pool" (.reward (10 ^ 22)), .income 7, .pool "pool" (.epochs 2), .pool "pool" (.unlock x),
   .call "mallory" 0 (.owner .unstakeAll)]

/-- A decidable check of the rules of the runtime; the stake granted after the first `k` events counts. -/
def rulesB (hist : List StakingPool.Ev) (k : Nat) : Bool :=
  let cfg := demoCfg.pool "pool"
  decide (StakingPool.Orderly cfg outPool (StakingPool.startLog outPool) hist ∧
    (StakingPool.run cfg outPool hist).epoch ≤
      (StakingPool.run cfg outPool (hist.take k ++ (hist.drop k).take 1)).epoch + 2 ∧
    (StakingPool.run cfg outPool hist).locked ≤
      (StakingPool.runLog cfg outPool (StakingPool.startLog outPool) (hist.take k)).granted +
        StakingPool.inflow (hist.drop k))

theorem rules_of_bool {hist : List StakingPool.Ev} {k : Nat} (h : rulesB hist k = true) :
    RuntimeRules (demoCfg.pool "pool") outPool hist := by
  obtain ⟨h1, h2, h3⟩ := of_decide_eq_true h
  exact ⟨h1, hist.take k, hist.drop k, (List.take_append_drop k hist).symm, h2, h3⟩

/-- A decidable check of the conditions on the pool. -/
def outReadyB (s s2 : Sys) : Bool :=
  match s.pools.get "pool", s2.pools.get "pool" with
  | some w, some w2 =>
    decide (w.liquid + w.locked < 2 ^ 120 ∧ w.epoch < 2 ^ 63 ∧ w.roundings ≤ 1000000000000 ∧
      w2.liquid + w2.locked < 2 ^ 120 ∧ w2.epoch < 2 ^ 63 ∧ w2.roundings ≤ 1000000000000 ∧
      w.epoch + 4 ≤ w2.epoch ∧ w2.pool.ownerId ≠ "lockup")
  | _, _ => false

/-- The hypotheses of `C115_owner_out_after_four_epochs` are met, although Alice has left as well (the rest of
`hist` is in `demo_life`); without the unlocking the second rule would be broken. -/
example :
    let evs := sysUnstake "owner" demo.lk.pend.length ++ outDays 15003000000000000066666669
    RuntimeRules (demoCfg.pool "pool") outPool (outHist ++ poolHist demoCfg "pool" demo evs) ∧
    Careful demoCfg (run demoCfg demo (sysUnstake "owner" demo.lk.pend.length))
      (outDays 15003000000000000066666669) ∧
    (∀ ev ∈ outDays 15003000000000000066666669,
      ev.caller ≠ some "owner" ∧ (ev.caller = none ∨ ev.caller ≠ some "fdn")) ∧
    outReadyB demo (run demoCfg demo evs) = true := by
  refine ⟨rules_of_bool (k := 13) (by decide +kernel), careful_of_bool (by decide +kernel), ?_,
    by decide +kernel⟩
  simp [outDays, Ev.caller]

/-- In this history the runtime gives back exactly what the rules demand: with one yocto less unlocked, the
rule is broken for the same choice of the moment. -/
example : rulesB (outHist ++ poolHist demoCfg "pool" demo
    (sysUnstake "owner" demo.lk.pend.length ++ outDays 15003000000000000066666668)) 13 = false := by
  decide +kernel

/-- The poll is decided during the wait, and time passes: the hypotheses of `C115_whole_way_out` are met (the
others are those of C105, shown there). -/
def outVotes : List Ev :=
  [.vote "a" 0 (.vote true), .tick 3, .vote "b" 0 (.vote true), .vote "c" 0 (.vote true), .tick (10 ^ 5)] ++
  outDays 15003000000000000066666669

example :
    let evs := sysUnstake "owner" demo.lk.pend.length ++ outVotes
    RuntimeRules (demoCfg.pool "pool") outPool (outHist ++ poolHist demoCfg "pool" demo evs) ∧
    Careful demoCfg (run demoCfg demo (sysUnstake "owner" demo.lk.pend.length)) outVotes ∧
    (∀ ev ∈ outVotes, ev.caller ≠ some "owner" ∧ (ev.caller = none ∨ ev.caller ≠ some "fdn")) ∧
    outReadyB demo (run demoCfg demo evs) = true ∧
    Voting.getResult (run demoCfg demo evs).poll.c = some 1003 ∧
    Lockup.specMoment 1003 Lockup.pollArgs.lockupDuration Lockup.pollArgs.lockupTimestamp +
      Lockup.pollArgs.releaseDuration.getD 0 ≤ (run demoCfg demo evs).lk.now ∧
    demo.lk.c.vesting = .schedule ⟨100, 2000, 4000⟩ ∧ 4000 ≤ (run demoCfg demo evs).lk.now := by
  refine ⟨rules_of_bool (k := 13) (by decide +kernel), careful_of_bool (by decide +kernel), ?_,
    by decide +kernel, by decide +kernel, by decide +kernel, by decide +kernel, by decide +kernel⟩
  simp [outVotes, outDays, Ev.caller]

/-- The pools of `demoTerm` and `demoFree` are those of `demo`. -/
theorem life_same {evs : List Ev} (h : poolHist demoCfg "pool" demo evs = []) :
    (run demoCfg demo evs).pools.get "pool" =
      some (StakingPool.run (demoCfg.pool "pool") outPool outHist) := by
  have := pool_hist_run (cfg := demoCfg) (p := "pool") (by decide) demo_life evs
  rw [h] at this
  exact this

/-- The hypotheses of `C115_termination_after_four_epochs` about pool and wait are met (the others are those of
C93, shown there). -/
example :
    let pre := sysTermUnstake "fdn" demoTerm.lk.pend.length demoStakedAmt
    let wait := outDays 15003000000000000066666669 ++ [.call "owner" 0 (.owner .unstakeAll)]
    demoTerm.pools.get "pool" = some (StakingPool.run (demoCfg.pool "pool") outPool outHist) ∧
    RuntimeRules (demoCfg.pool "pool") outPool
      (outHist ++ poolHist demoCfg "pool" demoTerm (pre ++ wait)) ∧
    Careful demoCfg (run demoCfg demoTerm pre) wait ∧ (∀ ev ∈ wait, ev.caller ≠ some "fdn") ∧
    outReadyB demoTerm (run demoCfg demoTerm (pre ++ wait)) = true := by
  refine ⟨life_same (by decide +kernel), rules_of_bool (k := 13) (by decide +kernel),
    careful_of_bool (by decide +kernel), ?_, by decide +kernel⟩
  simp [outDays, Ev.caller]

/-- The hypotheses of `C115_rewards_after_four_epochs` about pool and wait are met (the others are those of
C109, shown there). -/
example :
    let pre := sysUnstakeRewards "owner" 0 demoReward
    let wait := outDays 10003000000000000066666669
    demoFree.pools.get "pool" = some (StakingPool.run (demoCfg.pool "pool") outPool outHist) ∧
    RuntimeRules (demoCfg.pool "pool") outPool
      (outHist ++ poolHist demoCfg "pool" demoFree (pre ++ wait)) ∧
    Careful demoCfg (run demoCfg demoFree pre) wait ∧
    (∀ ev ∈ wait, ev.caller ≠ some "owner" ∧ (ev.caller = none ∨ ev.caller ≠ some "fdn")) ∧
    outReadyB demoFree (run demoCfg demoFree (pre ++ wait)) = true ∧
    (run demoCfg demoFree (pre ++ wait)).lk.bal + reported demoCfg demoFree "pool" < two128 := by
  refine ⟨life_same (by decide +kernel), rules_of_bool (k := 13) (by decide +kernel),
    careful_of_bool (by decide +kernel), ?_, by decide +kernel, by decide +kernel⟩
  simp [outDays, Ev.caller]

end Verif.System
