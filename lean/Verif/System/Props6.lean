import Verif.System.Gas
import Verif.System.Props2
import Verif.Lockup.Props6
import Verif.Factory.LockupF
import Verif.Factory.Pool

/-!
# System properties C102 and C103: the storage reserve and the gas reserves
-/

namespace Verif.System

open Verif

/-! ## C102 -/

/-- **C102 (system).** With real pools: a lockup created with at least 3.5 NEAR has at least 3.5 NEAR on its
own account at every moment, whatever the owner, the foundation and the pools do; created with less (the
factory refuses that), it never falls below the amount it was created with. -/
theorem C102_reserve_on_account {cfg : Cfg} {a : Lockup.NewArgs} {s : Sys} (h : Reachable cfg a s) :
    min s.lk.c.info.lockupAmount (35 * 10 ^ 23) ≤ s.lk.bal := by
  obtain ⟨w0, evs, ⟨d, b, n, c, hb, hx, hw⟩, h2⟩ := (reachable_inv h).reachable
  have h3 := Lockup.C102_storage_reserve_stays cfg.lk w0 evs
  rw [← h2] at h3
  have h4 := (Lockup.const_run (cfg := cfg.lk) (w := w0) evs).2.2.1
  rw [← h2] at h4
  have h5 := (Lockup.new_ok hx).2.2.2.2.2.1
  have h6 : w0.bal = b := by rw [hw]; rfl
  have h7 : w0.c.info.lockupAmount = b := by rw [hw]; exact h5
  have h8 : (abs cfg all s).bal = s.lk.bal := rfl
  have h9 : (abs cfg all s).c = s.lk.c := rfl
  rw [h9, h7] at h4
  rw [h8, h6] at h3
  rw [h4]
  exact h3

example : Reachable demoCfg Lockup.pollArgs demo ∧ (35 * 10 ^ 23 ≤ demo.lk.c.info.lockupAmount) :=
  ⟨demo_reachable, by decide +kernel⟩

/-! ## C103 -/

/-- **C103.** The gas the contracts attach suffices. If the work of each single method costs no more than
the 25 Tgas that lockup/src/gas.rs reserves for it, and the calls of the lockup come with the gas that the
documentation of the method asks for (`docTgas`), then nothing ever runs out of gas: the metered history is the history without meter and without failures of the
host. -/
theorem C103_gas_suffices (cfg : Cfg) (s : Sys) (evs : List GEv) (hm : ∀ ev ∈ evs, ev.Modest)
    (hf : ∀ ev ∈ evs, ev.Funded) : grun cfg s evs = run cfg s (evs.map GEv.plain) := by
  induction evs generalizing s with
  | nil => rfl
  | cons ev t ih =>
    simp only [grun, List.map_cons, run]
    rw [gstep_funded cfg s (hm ev (List.mem_cons_self ..)) (hf ev (List.mem_cons_self ..))]
    exact ih _ (fun ev h => hm ev (List.mem_cons_of_mem _ h)) (fun ev h => hf ev (List.mem_cons_of_mem _ h))

/-- **C103.** The documented amounts are exact. An accepted call whose own work burns the full 25 Tgas has no
effect with one unit less than documented; except for `transfer` and `add_full_access_key`, documented with
50 Tgas, where 25 suffice, and `termination_withdraw`, documented with 75, where 50 suffice. -/
theorem C103_documented_gas {cfg : Cfg} {s : Sys} {who : AccountId} {att : Nat} {c : Lockup.Call}
    {x : Lockup.Lockup × Option Lockup.Eff} (prepaid : Nat)
    (h : Lockup.exec (Lockup.mkEnv cfg.lk s.lk who att none) s.lk.c c = .ok x) :
    let need := match c with
      | .owner (.transfer ..) => 25
      | .owner (.addFullAccessKey _) => 25
      | .foundation (.terminationWithdraw _) => 50
      | c => docTgas c
    gstep cfg s (.call who att c prepaid (25 * 10 ^ 12)) =
      if need * 10 ^ 12 ≤ prepaid then step cfg s (.call who att c) else s := by
  intro need
  have hn : need = 25 + passedOn c := by
    cases c with
    | owner c => cases c <;> rfl
    | foundation c => cases c <;> rfl
    | callback c => rfl
  have h1 := callGas_eq h
  simp only [gstep, h1, hn, Nat.add_mul]

example : ∃ x, Lockup.exec (Lockup.mkEnv demoCfg.lk demo.lk "owner" 0 none) demo.lk.c
    (.owner .refreshStakingPoolBalance) = .ok x := ⟨_, by with_unfolding_all rfl⟩

/-- **C103.** A receipt of the lockup that is sent with `k` times 25 Tgas and burns more fails, and its
callback is told so. -/
theorem C103_receipt_without_gas {cfg : Cfg} {s : Sys} {i : Nat} {p : Lockup.Pending} {r : Lockup.PResult}
    {burnt k : Nat} (hp : s.lk.pend[i]? = some p) (hk : extBase p.ext = some k)
    (hb : 25 * 10 ^ 12 * k < burnt) :
    gstep cfg s (.execute i r burnt) = step cfg s (.execute i false r) := by
  have h1 : ¬ (burnt + receiverGas cfg s p.ext ≤ baseGas * k) := by
    have : baseGas = 25 * 10 ^ 12 := rfl
    rw [this]; omega
  simp only [gstep, hp, paysFor, hk, h1, decide_false]

/-- **C103.** The 20 Tgas that the pool attaches to its own callback count as well: `stake` at a pool that
sends the stake action with the callback fails if it burns more than 55 of its 75 Tgas. -/
theorem C103_stake_without_gas {cfg : Cfg} {s : Sys} {i : Nat} {p : Lockup.Pending} {r : Lockup.PResult}
    {burnt a : Nat} {pool : AccountId} {w : StakingPool.World} {w' : StakingPool.Pool}
    {effs : List StakingPool.Eff} {x : Nat} {key : PublicKey} (hp : s.lk.pend[i]? = some p)
    (hext : p.ext = .poolStake pool a) (hw : s.pools.get pool = some w)
    (hx : StakingPool.exec (StakingPool.mkEnv (cfg.pool pool) w cfg.lockup 0 []) w.pool (.stake a) =
      .ok (w', effs)) (hmem : .stake x key true ∈ effs) (hb : 55 * 10 ^ 12 < burnt) :
    gstep cfg s (.execute i r burnt) = step cfg s (.execute i false r) := by
  have h0 : ∀ l : List StakingPool.Eff, .stake x key true ∈ l → 20000000000000 ≤ poolEffsGas l := by
    intro l
    induction l with
    | nil => intro h; cases h
    | cons e t ih =>
      intro h
      have hc : poolEffsGas (e :: t) = poolEffGas e + poolEffsGas t := by simp [poolEffsGas]
      rw [hc]
      rcases List.mem_cons.mp h with rfl | h
      · simp [poolEffGas]
      · have := ih h; omega
  have h1 : receiverGas cfg s p.ext = poolEffsGas effs := by
    simp only [receiverGas, hext, callOf, hw, hx]
  have h2 : ¬ (burnt + receiverGas cfg s p.ext ≤ baseGas * 3) := by
    have hb' : baseGas = 25 * 10 ^ 12 := rfl
    have := h0 effs hmem
    rw [h1, hb']; omega
  have hk : extBase p.ext = some 3 := by rw [hext]; rfl
  simp only [gstep, hp, paysFor, hk, h2, decide_false]

/-- The lockup of the example unstakes a NEAR and stakes half of it again. -/
example :
    let s := run demoCfg demo [.call "owner" 0 (.owner (.unstake (10 ^ 24))), .execute 0 true .failed,
      .callback 0, .call "owner" 0 (.owner (.stake (5 * 10 ^ 23)))]
    (match s.lk.pend[0]?, s.pools.get "pool" with
    | some p, some w => decide (p.ext = .poolStake "pool" (5 * 10 ^ 23)) &&
      (match StakingPool.exec (StakingPool.mkEnv (demoCfg.pool "pool") w demoCfg.lockup 0 []) w.pool
          (.stake (5 * 10 ^ 23)) with
        | .ok (_, effs) => effs.any fun e => match e with
          | .stake _ _ true => true
          | _ => false
        | .error _ => false)
    | _, _ => false) = true := by
  decide +kernel

/-- What the pools owe to the lockup stays below 2^128, for a metered history (compare `Usual`). -/
def GSmall (cfg : Cfg) (s : Sys) : List GEv → Prop
  | [] => True
  | ev :: t => (∀ p, reported cfg s p < two128) ∧ GSmall cfg (gstep cfg s ev) t

theorem plain_hostOk {cfg : Cfg} {s : Sys} {ev : GEv} (h : ev.Modest) :
    (gstep cfg s ev = step cfg s ev.plain ∧ ∀ i r, ev.plain ≠ .execute i false r) ∨
      gstep cfg s ev = s := by
  rcases gstep_modest cfg s h with h1 | h1
  · cases ev with
    | other ev =>
      cases hm : ev.metered with
      | true => right; simp [gstep, hm]
      | false =>
        refine .inl ⟨h1, ?_⟩
        intro i r he
        have : ev = .execute i false r := he
        rw [this] at hm
        cases hm
    | _ => exact .inl ⟨h1, by intro i r he; cases he⟩
  · exact .inr h1

/-- **C103.** However little gas the callers attach: a metered history has the effects of the same history
without the calls that were not paid for. In particular no receipt and no callback of the lockup fails for
lack of gas, and everything that holds in all histories (C86-C89, C92, C93, C101, C102) holds with gas. -/
theorem C103_only_calls_run_out (cfg : Cfg) (s : Sys) (evs : List GEv) (hm : ∀ ev ∈ evs, ev.Modest) :
    ∃ evs' : List Ev, evs'.Sublist (evs.map GEv.plain) ∧ grun cfg s evs = run cfg s evs' ∧
      (∀ i r, .execute i false r ∉ evs') ∧ (GCareful cfg s evs → Careful cfg s evs') ∧
      (GSmall cfg s evs → Usual cfg s evs') := by
  induction evs generalizing s with
  | nil => exact ⟨[], List.Sublist.refl _, rfl, by simp, fun _ => trivial, fun _ => trivial⟩
  | cons ev t ih =>
    obtain ⟨evs', h1, h2, h3, h4, h5⟩ :=
      ih (gstep cfg s ev) (fun ev h => hm ev (List.mem_cons_of_mem _ h))
    rcases plain_hostOk (cfg := cfg) (s := s) (hm ev (List.mem_cons_self ..)) with ⟨h6, h7⟩ | h6
    · refine ⟨ev.plain :: evs', h1.cons_cons _, ?_, ?_, ?_, ?_⟩
      · simp only [grun, run]
        rw [h2, h6]
      · intro i r hmem
        rcases List.mem_cons.mp hmem with h | h
        · exact h7 i r h.symm
        · exact h3 i r h
      · intro hc
        refine ⟨?_, ?_⟩
        · intro who att p r he
          refine hc.1 who att p r ?_
          cases ev with
          | other ev => exact congrArg GEv.other he
          | _ => cases he
        · rw [← h6]; exact h4 hc.2
      · intro hc
        refine ⟨hc.1, ?_, ?_⟩
        · intro i r q he
          exact absurd he (h7 i r)
        · rw [← h6]; exact h5 hc.2
    · refine ⟨evs', h1.cons _, ?_, h3, ?_, ?_⟩
      · simp only [grun]
        rw [h2, h6]
      · intro hc
        have := h4 hc.2
        rwa [h6] at this
      · intro hc
        have := h5 hc.2
        rwa [h6] at this

/-- **C103.** A lockup with gas never gets stuck: when it is busy, a receipt to the selected pool is under
way. (C89 without the assumption that no query runs out of gas.) -/
theorem C103_never_stuck_with_gas {cfg : Cfg} {a : Lockup.NewArgs} {s0 : Sys} {evs : List GEv}
    (h : Started cfg a s0) (hm : ∀ ev ∈ evs, ev.Modest) (hc : GCareful cfg s0 evs)
    (hu : GSmall cfg s0 evs) {si : Lockup.StakingInfo}
    (hs : (grun cfg s0 evs).lk.c.staking = some si) (hbusy : si.busy = true) :
    ∃ (i : Nat) (q : Lockup.Pending) (cb : Lockup.Callback),
      (grun cfg s0 evs).lk.pend[i]? = some q ∧ q.cb = some cb ∧ q.ext.isPoolOp = true ∧
      q.ext.pool? = some si.pool := by
  obtain ⟨evs', h1, h2, h3, h4, h5⟩ := C103_only_calls_run_out cfg s0 evs hm
  rw [h2] at hs ⊢
  exact (C89_never_stuck h (h4 hc) (h5 hu) hs hbusy).1

/-- The example with gas: every method burns the full 25 Tgas. -/
def gdemoEvs : List GEv := demoEvs.map fun
  | .call who att c => .call who att c (docTgas c * 10 ^ 12) (25 * 10 ^ 12)
  | .execute i _ r => .execute i r (25 * 10 ^ 12)
  | .callback i => .callback i (25 * 10 ^ 12)
  | ev => .other ev

instance (ev : GEv) : Decidable ev.Modest := by cases ev <;> (unfold GEv.Modest; infer_instance)
instance (ev : GEv) : Decidable ev.Funded := by cases ev <;> (unfold GEv.Funded; infer_instance)

/-- The hypotheses of C103 are met, and the lockup has staked. -/
example : (∀ ev ∈ gdemoEvs, ev.Modest) ∧ (∀ ev ∈ gdemoEvs, ev.Funded) ∧
    (grun demoCfg (startOf Lockup.pollArgs) gdemoEvs).lk.c.staking =
      some ⟨"pool", false, 5 * 10 ^ 24⟩ := by
  refine ⟨by decide +kernel, by decide +kernel, by decide +kernel⟩

/-- What a decidable check says about `GCareful` and `GSmall`. -/
def gcheckB (cfg : Cfg) (s : Sys) : List GEv → Bool
  | [] => true
  | ev :: t =>
    (match ev with
      | .other (.whitelist ⟨_, _, .addPool p⟩) => s.pools.contains p
      | _ => true) &&
    (s.pools.keys.all fun p => decide (reported cfg s p < two128)) && gcheckB cfg (gstep cfg s ev) t

theorem gcheck_of_bool {cfg : Cfg} {s : Sys} {evs : List GEv} (h : gcheckB cfg s evs = true) :
    GCareful cfg s evs ∧ GSmall cfg s evs := by
  induction evs generalizing s with
  | nil => exact ⟨trivial, trivial⟩
  | cons ev t ih =>
    simp only [gcheckB, Bool.and_eq_true] at h
    obtain ⟨⟨h1, h2⟩, h3⟩ := h
    refine ⟨⟨?_, (ih h3).1⟩, ⟨?_, (ih h3).2⟩⟩
    · rintro who att p r rfl _
      exact h1
    · intro p
      by_cases hp : p ∈ s.pools.keys
      · exact of_decide_eq_true (List.all_eq_true.mp h2 p hp)
      · unfold reported
        rw [UMap.get_eq_none.mpr hp]
        show 0 < two128
        decide

/-- The hypotheses of `C103_never_stuck_with_gas` are met by a history in which the lockup is busy at the
end; the call before, without enough gas, had no effect. -/
example :
    let evs := gdemoEvs ++
      [.call "owner" 0 (.owner .withdrawAllFromStakingPool) (174 * 10 ^ 12) (25 * 10 ^ 12),
       .call "owner" 0 (.owner (.unstake (10 ^ 24))) (125 * 10 ^ 12) (25 * 10 ^ 12)]
    Started demoCfg Lockup.pollArgs (startOf Lockup.pollArgs) ∧ (∀ ev ∈ evs, ev.Modest) ∧
    GCareful demoCfg (startOf Lockup.pollArgs) evs ∧ GSmall demoCfg (startOf Lockup.pollArgs) evs ∧
    (grun demoCfg (startOf Lockup.pollArgs) evs).lk.c.staking = some ⟨"pool", true, 5 * 10 ^ 24⟩ := by
  intro evs
  have h : gcheckB demoCfg (startOf Lockup.pollArgs) evs = true := by decide +kernel
  exact ⟨demo_started, by decide +kernel, (gcheck_of_bool h).1, (gcheck_of_bool h).2, by decide +kernel⟩

/-- Why the reserves matter: `withdraw_all_from_staking_pool` whose callback burns one unit more than its
reserve leaves the lockup busy with nothing under way. -/
example :
    let s := grun demoCfg (startOf Lockup.pollArgs) (gdemoEvs ++
      [.call "owner" 0 (.owner (.unstake (10 ^ 24))) (175 * 10 ^ 12) 0, .execute 0 .failed 0,
       .callback 0 0,
       .call "owner" 0 (.owner .withdrawAllFromStakingPool) (175 * 10 ^ 12) 0, .execute 0 .failed 0,
       .callback 0 (25 * 10 ^ 12 + 1)])
    s.lk.c.staking = some ⟨"pool", true, 5 * 10 ^ 24⟩ ∧ s.lk.pend = [] := by
  decide +kernel

/-- The same calls with too little gas from the caller change nothing. -/
example : (grun demoCfg demo [.call "owner" 0 (.owner .withdrawAllFromStakingPool) (174 * 10 ^ 12)
    (25 * 10 ^ 12)]).lk.c.staking = some ⟨"pool", false, 5 * 10 ^ 24⟩ := by
  decide +kernel

/-! ### The factories -/

/-- staking-pool-factory/src/lib.rs:16-30 `gas`, attached to the promises of the staking pool factory
(183, 191, 222). -/
def facEffGas : PoolFactory.Eff → Nat
  | .create .. => 25000000000000 * 2 + 25000000000000 * 2
  | .whitelist .. => 25000000000000
  | .transfer .. => 0

/-- lockup-factory/src/lib.rs:23-32 `gas`, attached to the promises of the lockup factory (157, 164). -/
def lockupFacEffGas : LockupFactory.Eff → Nat
  | .create .. => 25000000000000 + 25000000000000
  | .transfer .. => 0

/-- **C103 (factories).** What the factories attach to `new` (`g`) and to their callbacks (`k`) pays for
25 Tgas of work and everything passed on, and a call of a factory needs 125 respectively 75 Tgas. -/
theorem C103_factory_reserves :
    (∀ {e : StakingPool.Env} {b : Bool} {owner : AccountId} {key : PublicKey} {fee : StakingPool.Fee}
      {p : StakingPool.Pool} {effs : List StakingPool.Eff},
      StakingPool.new e b owner key fee = .ok (p, effs) →
      25 * 10 ^ 12 + poolEffsGas effs ≤ 50 * 10 ^ 12) ∧
    (∀ {e : PoolFactory.Env} {s s' : PoolFactory.State} {id : AccountId} {d : Nat} {caller : AccountId}
      {effs : List PoolFactory.Eff} {r : Option Bool},
      PoolFactory.onStakingPoolCreate e s id d caller = .ok (s', effs, r) →
      25 * 10 ^ 12 + (effs.map facEffGas).sum ≤ 50 * 10 ^ 12) ∧
    (∀ {e : PoolFactory.Env} {s s' : PoolFactory.State} {id owner : AccountId} {key : PublicKey}
      {fee : StakingPool.Fee} {effs : List PoolFactory.Eff},
      PoolFactory.createStakingPool e s id owner key fee = .ok (s', effs) →
      25 * 10 ^ 12 + (effs.map facEffGas).sum ≤ 125 * 10 ^ 12) ∧
    (∀ {e : LockupFactory.Env} {s s' : LockupFactory.State} {id : AccountId} {d : Nat}
      {caller : AccountId} {effs : List LockupFactory.Eff} {r : Bool},
      LockupFactory.onLockupCreate e s id d caller = .ok (s', effs, r) →
      25 * 10 ^ 12 + (effs.map lockupFacEffGas).sum ≤ 25 * 10 ^ 12) ∧
    (∀ {e : LockupFactory.Env} {s s' : LockupFactory.State} {a : LockupFactory.CreateArgs}
      {effs : List LockupFactory.Eff},
      LockupFactory.create e s a = .ok (s', effs) →
      25 * 10 ^ 12 + (effs.map lockupFacEffGas).sum ≤ 75 * 10 ^ 12) := by
  refine ⟨?_, ?_, ?_, ?_, ?_⟩
  · intro e b owner key fee p effs h
    simp only [StakingPool.new, bind_ok, pure_ok, Prod.mk.injEq] at h
    obtain ⟨_, _, _, _, _, _, _, _, _, _, _, _, _, _, effs', h1, _, rfl⟩ := h
    have := restake_gas h1
    omega
  · intro e s s' id d caller effs r h
    simp only [PoolFactory.onStakingPoolCreate, bind_ok] at h
    obtain ⟨_, _, _, _, created, _, h⟩ := h
    cases created
    · simp only [Bool.false_eq_true, if_false, bind_ok, pure_ok, Prod.mk.injEq] at h
      obtain ⟨_, _, _, rfl, _⟩ := h
      simp [facEffGas]
    · simp only [if_true, pure_ok, Prod.mk.injEq] at h
      obtain ⟨_, rfl, _⟩ := h
      simp [facEffGas]
  · intro e s s' id owner key fee effs h
    simp only [PoolFactory.createStakingPool, bind_ok, pure_ok, Prod.mk.injEq] at h
    obtain ⟨_, _, _, _, _, _, _, _, _, _, _, _, _, _, _, _, _, rfl⟩ := h
    simp [facEffGas]
  · intro e s s' id d caller effs r h
    simp only [LockupFactory.onLockupCreate, bind_ok] at h
    obtain ⟨_, _, _, _, created, _, h⟩ := h
    cases created
    · simp only [Bool.false_eq_true, if_false, bind_ok, pure_ok, Prod.mk.injEq] at h
      obtain ⟨_, _, _, rfl, _⟩ := h
      simp [lockupFacEffGas]
    · simp only [if_true, pure_ok, Prod.mk.injEq] at h
      obtain ⟨_, rfl, _⟩ := h
      simp
  · intro e s s' a effs h
    simp only [LockupFactory.create, bind_ok, pure_ok, Prod.mk.injEq] at h
    obtain ⟨_, _, _, _, _, _, _, _, _, _, _, _, _, _, _, _, _, _, _, rfl⟩ := h
    simp [lockupFacEffGas]

/-- A pool created by the factory, and the callback for it. -/
example : ∃ p effs, StakingPool.new (StakingPool.initEnv (demoCfg.pool "p.f") "f" (30 * 10 ^ 24) 7) false
    "boss" "key" ⟨1, 10⟩ = .ok (p, effs) ∧ poolEffsGas effs = 20 * 10 ^ 12 :=
  ⟨_, _, by with_unfolding_all rfl, by decide +kernel⟩

example : ∃ s', PoolFactory.onStakingPoolCreate ⟨"f", "f", 0, 0, [true], fun _ => true⟩
    ⟨"wl", .empty⟩ "p.f" (30 * 10 ^ 24) "alice" = .ok (s', [.whitelist "wl" "p.f"], none) :=
  ⟨_, rfl⟩

end Verif.System
