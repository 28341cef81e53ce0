import Verif.System.Props8
import Verif.System.Props10
import Verif.StakingPool.Props12

/-!
# What a history of the system means for one of its pools (helpers for C115)
-/

namespace Verif.System

open Verif

/-- What an event of the system is for the pool on account `p`: a receipt of the lockup to the pool is a call
of the lockup, events of the pool are themselves. -/
def poolEvs (cfg : Cfg) (p : AccountId) (s : Sys) : Ev → List StakingPool.Ev
  | .execute i hostOk _ =>
    match s.lk.pend[i]? with
    | some ⟨ext, _, .sent⟩ =>
      match callOf ext with
      | some (q, att, c) => if hostOk = true ∧ q = p then [.call cfg.lockup att c] else []
      | none => []
    | _ => []
  | .pool q (.call who att c) => if q = p ∧ who ≠ cfg.lockup then [.call who att c] else []
  | .pool q ev => if q = p then [ev] else []
  | _ => []

/-- What a history of the system is for the pool on account `p`. -/
def poolHist (cfg : Cfg) (p : AccountId) (s : Sys) : List Ev → List StakingPool.Ev
  | [] => []
  | ev :: t => poolEvs cfg p s ev ++ poolHist cfg p (step cfg s ev) t

/-- The runtime keeps the two rules of staking-pool/src/lib.rs:81-85 at a pool that started as `w0`. -/
def RuntimeRules (cfg : StakingPool.Cfg) (w0 : StakingPool.World) (hist : List StakingPool.Ev) : Prop :=
  StakingPool.Orderly cfg w0 (StakingPool.startLog w0) hist ∧ StakingPool.Unlocks cfg w0 hist

theorem pool_evs_execute {cfg : Cfg} {p : AccountId} {s : Sys} {w : StakingPool.World}
    (hp : p ≠ cfg.lockup) (hw : s.pools.get p = some w) (i : Nat) (ok : Bool) (r : Lockup.PResult) :
    (execute cfg s i ok r).pools.get p =
      some (StakingPool.run (cfg.pool p) w (poolEvs cfg p s (.execute i ok r))) := by
  have hself : cfg.lockup ≠ (cfg.pool p).self := fun e => hp e.symm
  simp only [execute, poolEvs]
  rcases hg : s.lk.pend[i]? with _ | ⟨ext, cb, st⟩
  · exact hw
  · cases st with
    | done r' => exact hw
    | sent =>
      simp only
      have key : (runExt cfg s ⟨ext, cb, .sent⟩ ok r).2.pools.get p =
          some (StakingPool.run (cfg.pool p) w
            (match callOf ext with
              | some (q, att, c) => if ok = true ∧ q = p then [.call cfg.lockup att c] else []
              | none => [])) := by
        simp only [runExt]
        cases ok with
        | false =>
          rw [if_pos rfl]
          cases callOf ext with
          | none => exact hw
          | some x => simp only [Bool.false_eq_true, false_and, if_false]; exact hw
        | true =>
          rw [if_neg (by simp)]
          rcases hc : callOf ext with _ | ⟨q, att, c⟩
          · simp only
            cases viewOf ext with
            | none => simp only; cases ext <;> exact hw
            | some y =>
              obtain ⟨q, view⟩ := y
              simp only
              cases s.pools.get q <;> exact hw
          · simp only [true_and]
            by_cases hq : q = p
            · subst hq
              rw [if_pos rfl, hw]
              simp only [callPool, StakingPool.run, StakingPool.step, if_neg hself, StakingPool.doCall]
              cases hx : StakingPool.exec (StakingPool.mkEnv (cfg.pool q) w cfg.lockup att []) w.pool c with
              | error e => exact hw
              | ok y => exact UMap.get_insert_self ..
            · rw [if_neg hq]
              cases hg2 : s.pools.get q with
              | none => exact hw
              | some w2 =>
                simp only [callPool]
                cases hx : StakingPool.exec (StakingPool.mkEnv (cfg.pool q) w2 cfg.lockup att []) w2.pool c with
                | error e => exact hw
                | ok y =>
                  simp only [UMap.get_insert, if_neg hq]
                  exact hw
      generalize hxr : runExt cfg s ⟨ext, cb, .sent⟩ ok r = xr at key ⊢
      obtain ⟨r', s'⟩ := xr
      cases cb <;> exact key

theorem pool_evs_step {cfg : Cfg} {p : AccountId} {s : Sys} {w : StakingPool.World}
    (hp : p ≠ cfg.lockup) (hw : s.pools.get p = some w) (ev : Ev) :
    (step cfg s ev).pools.get p = some (StakingPool.run (cfg.pool p) w (poolEvs cfg p s ev)) := by
  cases ev with
  | execute i ok r => exact pool_evs_execute hp hw i ok r
  | pool q pev =>
    by_cases hq : q = p
    · subst hq
      cases pev with
      | call who att c =>
        simp only [step, hw, poolEvs]
        by_cases hl : who = cfg.lockup
        · rw [if_pos hl, if_neg (fun h => h.2 hl)]; exact hw
        · rw [if_neg hl, if_pos ⟨trivial, hl⟩]; exact UMap.get_insert_self ..
      | _ =>
        simp only [step, hw, poolEvs, if_true]
        exact UMap.get_insert_self ..
    · have hsame : (step cfg s (.pool q pev)).pools.get p = s.pools.get p := by
        cases hg : s.pools.get q with
        | none => simp only [step, hg]
        | some w2 =>
          cases pev with
          | call who att c =>
            simp only [step, hg]
            split
            · rfl
            · rw [UMap.get_insert, if_neg hq]
          | _ =>
            simp only [step, hg]
            rw [UMap.get_insert, if_neg hq]
      rw [hsame, hw]
      cases pev with
      | call who att c => simp only [poolEvs]; rw [if_neg (fun h => hq h.1)]; rfl
      | _ => simp only [poolEvs]; rw [if_neg hq]; rfl
  | create q deployer owner key fee balance epoch =>
    show _ = some w
    simp only [step, create]
    split
    · exact hw
    · rename_i hn
      have hqp : ¬ q = p := by
        intro e
        subst e
        exact hn (.inr (contains_get.mpr ⟨w, hw⟩))
      split
      · split
        · simp only [UMap.get_insert, if_neg hqp]; exact hw
        · exact hw
      · exact hw
  | _ => exact hw

/-- The pool after a history of the system. -/
theorem pool_hist_run {cfg : Cfg} {p : AccountId} {s : Sys} {w : StakingPool.World}
    (hp : p ≠ cfg.lockup) (hw : s.pools.get p = some w) (evs : List Ev) :
    (run cfg s evs).pools.get p = some (StakingPool.run (cfg.pool p) w (poolHist cfg p s evs)) := by
  induction evs generalizing s w with
  | nil => exact hw
  | cons ev t ih =>
    simp only [poolHist, pool_run_append]
    exact ih (pool_evs_step hp hw ev)

/-- The tokens of the lockup are there when they are due. -/
theorem wait_pays {cfg : Cfg} {a : Lockup.NewArgs} {s1 : Sys} (hi1 : Inv cfg a s1)
    {p : AccountId} {known : Nat} (hcalm : Lockup.Calm s1.lk.c p known) {wait : List Ev}
    (hcar : Careful cfg s1 wait) (hquiet : ∀ ev ∈ wait, ev.Quiet s1.lk.c)
    {w1 w2 : StakingPool.World} (hg1 : s1.pools.get p = some w1)
    (hg2 : (run cfg s1 wait).pools.get p = some w2) (hep : w1.epoch + 4 ≤ w2.epoch)
    (hb2 : StakingPool.Bounded w2) {w0 : StakingPool.World} {hist : List StakingPool.Ev}
    (h0 : StakingPool.Started (cfg.pool p) w0) (hw2 : w2 = StakingPool.run (cfg.pool p) w0 hist)
    (hr : RuntimeRules (cfg.pool p) w0 hist) :
    (StakingPool.getAcc w2.pool cfg.lockup).unstaked = (StakingPool.getAcc w1.pool cfg.lockup).unstaked ∧
    (StakingPool.getAcc w2.pool cfg.lockup).unstaked ≤ w2.liquid := by
  obtain ⟨_, _, w2', hg2', evs, hno, hw2'⟩ := calm_sys_run hi1 hcalm hcar hquiet hg1
  rw [hg2] at hg2'
  have e2 : w2 = w2' := Option.some.inj hg2'
  rw [← e2] at hw2'
  have hre1 := (hi1.pools p w1 hg1).2
  obtain ⟨s01, hwi1⟩ := StakingPool.reachable_inv hre1
  obtain ⟨_, hun, hav⟩ := StakingPool.run_bystander hwi1 hno
  rw [← hw2'] at hun hav
  have hsoon := StakingPool.unlock_soon hre1 cfg.lockup
  refine ⟨hun, ?_⟩
  have hre2 : StakingPool.Reachable (cfg.pool p) w2 := ⟨w0, hist, h0, hw2⟩
  obtain ⟨s02, hwi2⟩ := StakingPool.reachable_inv hre2
  have hacc := StakingPool.getAccount_total hwi2.pool w2.epoch cfg.lockup
  have hg := StakingPool.givenBack_of_rules h0 hr.1 hr.2
  rw [hw2] at hacc
  have hd := StakingPool.C114_due_tokens_are_liquid h0 hg (A := [cfg.lockup]) (by simp)
    (acc := fun _ => _) (fun x hx => by rw [List.mem_singleton.mp hx]; exact hacc)
    (fun x _ => by
      simp only
      rw [← hw2]
      exact decide_eq_true (by omega))
  simp only [List.map_cons, List.map_nil, List.sum_cons, List.sum_nil, Nat.add_zero] at hd
  rw [← hw2] at hd
  have := hb2.roundings
  omega

/-- The history of the pool after the wait. -/
theorem life_after {cfg : Cfg} {p : AccountId} {s : Sys} {w0 w w2 : StakingPool.World}
    {hist : List StakingPool.Ev} (hp : p ≠ cfg.lockup)
    (hlife : w = StakingPool.run (cfg.pool p) w0 hist) (hw : s.pools.get p = some w) {evs : List Ev}
    (hw2 : (run cfg s evs).pools.get p = some w2) :
    w2 = StakingPool.run (cfg.pool p) w0 (hist ++ poolHist cfg p s evs) := by
  rw [pool_run_append, ← hlife]
  have := pool_hist_run hp hw evs
  rw [hw2] at this
  exact Option.some.inj this

/-- The tokens are there after the wait of C92. -/
theorem owner_liquid {cfg : Cfg} {a : Lockup.NewArgs} {s : Sys}
    (h : Reachable cfg a s) (ho : a.owner ≠ cfg.lockup) {p : AccountId} {known : Nat}
    (hs : s.lk.c.staking = some ⟨p, false, known⟩)
    (hterm : ∀ u st, s.lk.c.vesting ≠ .terminating u st)
    {w0 w : StakingPool.World} {hist : List StakingPool.Ev} (h0 : StakingPool.Started (cfg.pool p) w0)
    (hlife : w = StakingPool.run (cfg.pool p) w0 hist)
    (hw : s.pools.get p = some w) (hb : StakingPool.Bounded w)
    {wait : List Ev} (hcar : Careful cfg (run cfg s (sysUnstake a.owner s.lk.pend.length)) wait)
    (hq : ∀ ev ∈ wait, ev.caller ≠ some a.owner ∧
      (ev.caller = none ∨ ev.caller ≠ s.lk.c.foundation))
    {w2 : StakingPool.World}
    (hw2 : (run cfg s (sysUnstake a.owner s.lk.pend.length ++ wait)).pools.get p = some w2)
    (hrules : RuntimeRules (cfg.pool p) w0
      (hist ++ poolHist cfg p s (sysUnstake a.owner s.lk.pend.length ++ wait)))
    (hep : w.epoch + 4 ≤ w2.epoch) (hb2 : StakingPool.Bounded w2) {N : Nat}
    (hN : StakingPool.getAccountUnstakedBalance w2.epoch w2.pool cfg.lockup = .ok N) :
    N ≤ w2.liquid := by
  have hi := reachable_inv h
  have hpl := (hi.pools p w hw).1
  have hoc := owner_const hi
  have hoS : s.lk.c.owner ≠ cfg.lockup := by rw [hoc]; exact ho
  obtain ⟨w1, r1, hg1, _, he1, _, _, _⟩ := sys_unstake hi hoS hs hterm hw hb
  rw [hoc] at r1 hg1
  have hc1 : Careful cfg s (sysUnstake a.owner s.lk.pend.length) := by simp [sysUnstake, Careful]
  have hi1 := (inv_run hi hc1).1
  have hlife2 := life_after hpl hlife hw hw2
  have hlc1 : (run cfg s (sysUnstake a.owner s.lk.pend.length)).lk.c = s.lk.c :=
    (congrArg Lockup.World.c r1).symm
  have hw2' := hw2
  rw [run_append] at hw2'
  obtain ⟨_, hliq⟩ := wait_pays hi1
    ⟨by rw [hlc1]; exact hs, fun u st hv => absurd (by rw [← hlc1]; exact hv) (hterm u st)⟩ hcar
    (by
      intro ev hev who hwho
      rw [hlc1]
      obtain ⟨g1, g2⟩ := hq ev hev
      rw [hwho] at g1 g2
      refine ⟨.inr (fun e => g1 (by rw [e, hoc])), fun e => ?_⟩
      rcases g2 with g2 | g2
      · cases g2
      · exact g2 e.symm)
    hg1 hw2' (by omega) hb2 h0 hlife2 hrules
  obtain ⟨s02, hwi2⟩ := StakingPool.reachable_inv ⟨w0, _, h0, hlife2⟩
  rw [StakingPool.getUnstaked_total hwi2.pool] at hN
  rw [← Except.ok.inj hN]
  exact hliq

/-- The tokens are there after the wait of C93. -/
theorem foundation_liquid {cfg : Cfg} {a : Lockup.NewArgs} {s : Sys}
    (h : Reachable cfg a s) {f : AccountId} {u : Nat}
    (hv : s.lk.c.vesting = .terminating u .terminatedWithDeficit)
    (hf : s.lk.c.foundation = some f) (hfs : f ≠ cfg.lockup)
    {p : AccountId} {known : Nat} (hs : s.lk.c.staking = some ⟨p, false, known⟩)
    {w0 w : StakingPool.World} {hist : List StakingPool.Ev} (h0 : StakingPool.Started (cfg.pool p) w0)
    (hlife : w = StakingPool.run (cfg.pool p) w0 hist)
    (hw : s.pools.get p = some w) (hb : StakingPool.Bounded w) {S : Nat}
    (hS : StakingPool.getAccountStakedBalance w.epoch w.pool cfg.lockup = .ok S)
    {wait : List Ev} (hcar : Careful cfg (run cfg s (sysTermUnstake f s.lk.pend.length S)) wait)
    (hq : ∀ ev ∈ wait, ev.caller ≠ some f) {w2 : StakingPool.World}
    (hw2 : (run cfg s (sysTermUnstake f s.lk.pend.length S ++ wait)).pools.get p = some w2)
    (hrules : RuntimeRules (cfg.pool p) w0
      (hist ++ poolHist cfg p s (sysTermUnstake f s.lk.pend.length S ++ wait)))
    (hep : w.epoch + 4 ≤ w2.epoch) (hb2 : StakingPool.Bounded w2) {N : Nat}
    (hN : StakingPool.getAccountUnstakedBalance w2.epoch w2.pool cfg.lockup = .ok N) :
    N ≤ w2.liquid := by
  have hi := reachable_inv h
  obtain ⟨hpl, hre⟩ := hi.pools p w hw
  obtain ⟨s0, hwi⟩ := StakingPool.reachable_inv hre
  rw [StakingPool.getStaked_total hwi.pool] at hS
  have hS := (Except.ok.inj hS).symm
  obtain ⟨w1, r1, hg1, he1, _⟩ := sys_termUnstake hi hf hfs hs hv hw hb hS
  have hc1 : Careful cfg s (sysTermUnstake f s.lk.pend.length S) := by
    unfold sysTermUnstake; split <;> simp [Careful]
  have hi1 := (inv_run hi hc1).1
  have hlife2 := life_after hpl hlife hw hw2
  have hlc1 : (run cfg s (sysTermUnstake f s.lk.pend.length S)).lk.c =
      { s.lk.c with vesting := .terminating u .everythingUnstaked } := (congrArg Lockup.World.c r1).symm
  have hv1 : (run cfg s (sysTermUnstake f s.lk.pend.length S)).lk.c.vesting =
      .terminating u .everythingUnstaked := by rw [hlc1]
  have hf1 : (run cfg s (sysTermUnstake f s.lk.pend.length S)).lk.c.foundation = some f := by
    rw [hlc1]; exact hf
  have hw2' := hw2
  rw [run_append] at hw2'
  obtain ⟨_, hliq⟩ := wait_pays hi1 (known := known)
    ⟨by rw [hlc1]; exact hs, fun u' st' hv' => by
      rw [hv1] at hv'
      cases hv'
      exact .inr (.inl rfl)⟩ hcar
    (by
      intro ev hev who hwho
      refine ⟨.inl (by rw [hv1]; rfl), fun e => ?_⟩
      rw [hf1] at e
      cases e
      exact hq ev hev hwho)
    hg1 hw2' (by omega) hb2 h0 hlife2 hrules
  obtain ⟨s02, hwi2⟩ := StakingPool.reachable_inv ⟨w0, _, h0, hlife2⟩
  rw [StakingPool.getUnstaked_total hwi2.pool] at hN
  rw [← Except.ok.inj hN]
  exact hliq

/-- The tokens are there after the wait of C109. -/
theorem rewards_liquid {cfg : Cfg} {a : Lockup.NewArgs} {s : Sys} (h : Reachable cfg a s)
    (ho : s.lk.c.owner ≠ cfg.lockup) {p : AccountId} {known : Nat}
    (hs : s.lk.c.staking = some ⟨p, false, known⟩)
    (hterm : ∀ u st, s.lk.c.vesting ≠ .terminating u st)
    {w0 w : StakingPool.World} {hist : List StakingPool.Ev} (h0 : StakingPool.Started (cfg.pool p) w0)
    (hlife : w = StakingPool.run (cfg.pool p) w0 hist)
    (hw : s.pools.get p = some w) (hb : StakingPool.Bounded w) {S : Nat}
    (hS : StakingPool.getAccountStakedBalance w.epoch w.pool cfg.lockup = .ok S)
    {x : Nat} (hx0 : 0 < x) (hxS : x ≤ S) (hR : reported cfg s p < two128)
    {wait : List Ev}
    (hcar : Careful cfg (run cfg s (sysUnstakeRewards s.lk.c.owner s.lk.pend.length x)) wait)
    (hq : ∀ ev ∈ wait, ev.caller ≠ some s.lk.c.owner ∧
      (ev.caller = none ∨ ev.caller ≠ s.lk.c.foundation))
    {w2 : StakingPool.World}
    (hw2 : (run cfg s (sysUnstakeRewards s.lk.c.owner s.lk.pend.length x ++ wait)).pools.get p = some w2)
    (hrules : RuntimeRules (cfg.pool p) w0
      (hist ++ poolHist cfg p s (sysUnstakeRewards s.lk.c.owner s.lk.pend.length x ++ wait)))
    (hep : w.epoch + 4 ≤ w2.epoch) (hb2 : StakingPool.Bounded w2) : x ≤ w2.liquid := by
  have hi := reachable_inv h
  obtain ⟨hpl, hre⟩ := hi.pools p w hw
  have hself : cfg.lockup ≠ (cfg.pool p).self := fun e => hpl e.symm
  have hlife2 := life_after hpl hlife hw hw2
  obtain ⟨i0, hwi⟩ := StakingPool.reachable_inv hre
  have hxR : x ≤ reported cfg s p := by
    rw [reported_worth hw, worth_eq hre]
    rw [StakingPool.getStaked_total hwi.pool] at hS
    cases hS
    omega
  have h1 := C104_refresh_exact h hs hterm ho hR
  generalize hR' : reported cfg s p = R at *
  obtain ⟨q, effs, u, u', hex, hu, hu', huu⟩ := StakingPool.unstake_works hre hb cfg.lockup hS hx0 hxS
  have h2 := (op_round (cfg := cfg) (s := { s with
      lk := { s.lk with c := { s.lk.c with staking := some ⟨p, false, R⟩ } } }) (c := .unstake x)
    rfl (by intro y hy; cases hy; exact ⟨hx0, by omega⟩) rfl hterm ho (fun h => absurd h (by omega))
    (by omega) hw).1 q effs hex
  have hpay := other_paid hre rfl hex
  rw [hpay] at h2
  obtain ⟨hreW1, _⟩ := worth_call hre hself hex
  generalize hW1 : StakingPool.commit w cfg.lockup 0 (.unstake x) q effs = w1 at *
  have hrunU : run cfg s (sysUnstakeRewards s.lk.c.owner s.lk.pend.length x) = { s with
      pools := s.pools.insert p w1
      lk := { s.lk with c := { s.lk.c with staking := some ⟨p, false, R⟩ } } } := by
    unfold sysUnstakeRewards
    rw [run_append, h1]
    exact h2
  have hcU : Careful cfg s (sysUnstakeRewards s.lk.c.owner s.lk.pend.length x) := by
    simp [sysUnstakeRewards, opRound, Careful]
  have hiU := (inv_run hi hcU).1
  have hw2' := hw2
  rw [run_append] at hw2'
  have hlc := congrArg (fun s' => s'.lk.c) hrunU
  have hgU : (run cfg s (sysUnstakeRewards s.lk.c.owner s.lk.pend.length x)).pools.get p = some w1 := by
    rw [hrunU]; exact UMap.get_insert_self ..
  simp only at hlc
  have hep1 : w1.epoch = w.epoch := by rw [← hW1]; rfl
  obtain ⟨hun, hliq⟩ := wait_pays hiU (known := R)
    ⟨by rw [hlc], fun u st hv => absurd (by rw [hlc] at hv; exact hv) (hterm u st)⟩ hcar
    (by
      intro ev hev who hwho
      rw [hlc]
      obtain ⟨g1, g2⟩ := hq ev hev
      rw [hwho] at g1 g2
      refine ⟨.inr (fun e => g1 (by rw [e])), fun e => ?_⟩
      rcases g2 with g2 | g2
      · cases g2
      · exact g2 e.symm)
    hgU hw2' (by omega) hb2 h0 hlife2 hrules
  obtain ⟨i1, hwi1⟩ := StakingPool.reachable_inv hreW1
  have hunst : x ≤ (StakingPool.getAcc w1.pool cfg.lockup).unstaked := by
    rw [StakingPool.getUnstaked_total (s := q) (by rw [← hW1] at hwi1; exact hwi1.pool)] at hu'
    cases hu'
    rw [← hW1]
    show x ≤ (StakingPool.getAcc q cfg.lockup).unstaked
    omega
  omega

end Verif.System
