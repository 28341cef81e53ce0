import Verif.System.Joint
import Verif.System.Sim
import Verif.System.Calm
import Verif.Factory.PoolProps2

/-!
# The joint world is a history of the system and a history of the factory
-/

namespace Verif.System

open Verif Verif.Factory

/-! ## Pools and whitelist in one event of the system -/

theorem runExt_pools {cfg : Cfg} {s : Sys} (hne : ∀ p w, s.pools.get p = some w → p ≠ cfg.lockup)
    (q : Lockup.Pending) (ok : Bool) (r : Lockup.PResult) :
    (runExt cfg s q ok r).2.wl = s.wl ∧ ((runExt cfg s q ok r).2.pools = s.pools ∨
      ∃ p w e, s.pools.get p = some w ∧
        (runExt cfg s q ok r).2.pools = s.pools.insert p (StakingPool.step (cfg.pool p) w e)) := by
  unfold runExt
  split
  · exact ⟨rfl, .inl rfl⟩
  split
  · rename_i p att c _
    cases hw : s.pools.get p with
    | none => exact ⟨rfl, .inl rfl⟩
    | some w =>
      simp only [callPool]
      cases hx : StakingPool.exec (StakingPool.mkEnv (cfg.pool p) w cfg.lockup att []) w.pool c with
      | error e => exact ⟨rfl, .inl rfl⟩
      | ok y =>
        obtain ⟨q', effs⟩ := y
        refine ⟨rfl, .inr ⟨p, w, .call cfg.lockup att c, hw, ?_⟩⟩
        have hself : cfg.lockup ≠ (cfg.pool p).self := fun e => hne p w hw e.symm
        rw [step_call hself hx]
  · split
    · rename_i p view _
      cases hw : s.pools.get p with
      | none => exact ⟨rfl, .inl rfl⟩
      | some w => exact ⟨rfl, .inl rfl⟩
    · split <;> exact ⟨rfl, .inl rfl⟩

theorem execute_pools {cfg : Cfg} {s : Sys} (hne : ∀ p w, s.pools.get p = some w → p ≠ cfg.lockup)
    (i : Nat) (ok : Bool) (r : Lockup.PResult) :
    (execute cfg s i ok r).wl = s.wl ∧ ((execute cfg s i ok r).pools = s.pools ∨
      ∃ p w e, s.pools.get p = some w ∧
        (execute cfg s i ok r).pools = s.pools.insert p (StakingPool.step (cfg.pool p) w e)) := by
  unfold execute
  split
  · rename_i ext cb _
    have h := runExt_pools hne ⟨ext, cb, .sent⟩ ok r
    cases hx : runExt cfg s ⟨ext, cb, .sent⟩ ok r with
    | mk r' s' =>
      rw [hx] at h
      simp only
      cases cb with
      | none => exact h
      | some cb => exact h
  · exact ⟨rfl, .inl rfl⟩

/-- How the pools change in one event. -/
theorem step_pools {cfg : Cfg} {s : Sys} (hne : ∀ p w, s.pools.get p = some w → p ≠ cfg.lockup)
    (ev : Ev) :
    (step cfg s ev).pools = s.pools ∨
    (∃ p w e, s.pools.get p = some w ∧
      (step cfg s ev).pools = s.pools.insert p (StakingPool.step (cfg.pool p) w e)) ∨
    ∃ p deployer owner key fee balance epoch w,
      ev = .create p deployer owner key fee balance epoch ∧ s.pools.get p = none ∧
      (step cfg s ev).pools = s.pools.insert p w := by
  cases ev with
  | execute i ok r =>
    rcases (execute_pools hne i ok r).2 with h | h
    · exact .inl h
    · exact .inr (.inl h)
  | pool p pev =>
    cases hw : s.pools.get p with
    | none => left; simp only [step, hw]
    | some w =>
      cases pev with
      | call who att c =>
        simp only [step, hw]
        split
        · exact .inl rfl
        · exact .inr (.inl ⟨p, w, _, hw, rfl⟩)
      | _ => simp only [step, hw]; exact .inr (.inl ⟨p, w, _, hw, rfl⟩)
  | create p deployer owner key fee balance epoch =>
    simp only [step, create]
    split
    · exact .inl rfl
    · rename_i hn
      split
      · split
        · refine .inr (.inr ⟨p, _, _, _, _, _, _, _, rfl, ?_, rfl⟩)
          cases hg : s.pools.get p with
          | none => rfl
          | some w => exact absurd (.inr (contains_get.mpr ⟨w, hg⟩)) hn
        · exact .inl rfl
      · exact .inl rfl
  | _ => exact .inl rfl

/-- Only calls of the whitelist change it. -/
theorem step_wl {cfg : Cfg} {s : Sys} (hne : ∀ p w, s.pools.get p = some w → p ≠ cfg.lockup)
    (ev : Ev) (h : ∀ e, ev ≠ .whitelist e) : (step cfg s ev).wl = s.wl := by
  cases ev with
  | execute i ok r => exact (execute_pools hne i ok r).1
  | pool p pev =>
    cases hw : s.pools.get p with
    | none => simp only [step, hw]
    | some w =>
      cases pev with
      | call who att c => simp only [step, hw]; split <;> rfl
      | _ => simp only [step, hw]
  | create p deployer owner key fee balance epoch =>
    simp only [step, create]
    split
    · rfl
    · split
      · split <;> rfl
      · rfl
  | whitelist e => exact absurd rfl (h e)
  | _ => rfl

/-! ## Both histories -/

/-- The events of the factory in a joint event. -/
def facEvs : JEv → List PoolFactory.Ev
  | .sys (.whitelist ev) => [.whitelistCall ev]
  | .sys _ => []
  | .fac (.whitelistCall _) => []
  | .fac ev => [ev]

/-- The events of the system in a joint event. -/
def sysEvs (cfg : JCfg) (j : Joint) : JEv → List Ev
  | .sys (.whitelist ev) => if ev.who = cfg.factory then [] else [.whitelist ev]
  | .sys (.create p deployer owner key fee balance epoch) =>
    if directSub cfg.factory p = true ∧ cfg.existing p = false then []
    else [.create p deployer owner key fee balance epoch]
  | .sys ev => [ev]
  | .fac (.deliver i ok) =>
    match j.fac.receipts[i]? with
    | some (.create b _ _ _) =>
      match newborn j.world (PoolFactory.step cfg.fac j.world (.deliver i ok)) (.deliver i ok) with
      | some _ => [.create b.receiver cfg.factory b.owner b.key b.fee b.deposit j.fac.epoch]
      | none => []
    | some (.whitelist c id) =>
      if c = j.fac.c.whitelistId then [.whitelist ⟨cfg.factory, 0, .addPool id⟩] else []
    | _ => []
  | .fac _ => []

/-- The history of the factory. -/
def facHist : List JEv → List PoolFactory.Ev
  | [] => []
  | ev :: t => facEvs ev ++ facHist t

/-- The history of the system. -/
def sysHist (cfg : JCfg) (j : Joint) : List JEv → List Ev
  | [] => []
  | ev :: t => sysEvs cfg j ev ++ sysHist cfg (jstep cfg j ev) t

/-- What holds in every reachable joint state. -/
structure JInv (cfg : JCfg) (a : Lockup.NewArgs) (j : Joint) : Prop where
  sys : Inv cfg.sys a j.sys
  fac : ∃ base, PoolFactory.FInv cfg.fac base j.world
  lockup : directSub cfg.factory cfg.sys.lockup = true → cfg.existing cfg.sys.lockup = true
  created : ∀ p acc, j.fac.accounts.get p = some acc → ∃ evs,
    j.sys.pools.get p = some (StakingPool.run (cfg.sys.pool p) acc.pool evs)
  others : ∀ p, j.sys.pools.contains p = true → directSub cfg.factory p = true →
    cfg.existing p = false → j.fac.accounts.contains p = true

theorem JInv.ne {cfg : JCfg} {a : Lockup.NewArgs} {j : Joint} (h : JInv cfg a j) :
    ∀ p w, j.sys.pools.get p = some w → p ≠ cfg.sys.lockup := fun p w hg => (h.sys.pools p w hg).1

theorem world_sys {j : Joint} {s : Sys} (h : s.wl = j.sys.wl) :
    ({ j with sys := s } : Joint).world = j.world := by
  simp only [Joint.world]; rw [h]

/-- The factory part. -/
theorem jstep_world {cfg : JCfg} {a : Lockup.NewArgs} {j : Joint} (h : JInv cfg a j) (ev : JEv) :
    (jstep cfg j ev).world = PoolFactory.run cfg.fac j.world (facEvs ev) := by
  have other : ∀ ev, (∀ e, ev ≠ Ev.whitelist e) →
      ({ j with sys := step cfg.sys j.sys ev } : Joint).world = j.world :=
    fun ev he => world_sys (step_wl h.ne ev he)
  cases ev with
  | sys ev =>
    cases ev with
    | whitelist ev =>
      simp only [jstep, facEvs, PoolFactory.run, List.foldl_cons, List.foldl_nil, PoolFactory.step]
      have : cfg.fac.self = cfg.factory := rfl
      rw [this]
      split <;> rfl
    | create p deployer owner key fee balance epoch =>
      simp only [jstep, facEvs, PoolFactory.run, List.foldl_nil]
      split
      · rfl
      · exact other _ (by simp)
    | _ => exact other _ (by simp)
  | fac ev =>
    cases ev with
    | whitelistCall e => rfl
    | _ => rfl

theorem fac_whitelistId (cfg : PoolFactory.Cfg) (w : PoolFactory.World) (ev : PoolFactory.Ev) :
    (PoolFactory.step cfg w ev).c.whitelistId = w.c.whitelistId := by
  cases ev with
  | create who att poolId owner key fee =>
    simp only [PoolFactory.step]
    split
    · rename_i s effs hx
      obtain ⟨_, rfl, _⟩ := PoolFactory.create_ok.mp hx
      rfl
    · rfl
  | callCallback who att id d caller => rw [PoolFactory.callCallback_step]
  | deliver i ok =>
    simp only [PoolFactory.step]
    split
    · rename_i r _
      cases r with
      | create b id d caller => simp only [PoolFactory.execReceipt]; split <;> rfl
      | callback id d caller b =>
        simp only [PoolFactory.execReceipt]
        split
        · rename_i s effs v hx
          obtain ⟨_, _, ⟨_, rfl, _⟩ | ⟨_, _, rfl, _⟩⟩ := PoolFactory.callback_ok.mp hx <;> rfl
        · rfl
      | whitelist c id => simp only [PoolFactory.execReceipt]; split <;> rfl
    · rfl
  | whitelistCall e => simp only [PoolFactory.step]; split <;> rfl
  | income n => rfl
  | epochs n => rfl

/-- A newborn pool comes from a successful deployment. -/
theorem newborn_some {cfg : JCfg} {j : Joint} {ev : PoolFactory.Ev} {p : AccountId}
    {w : StakingPool.World}
    (h : newborn j.world (PoolFactory.step cfg.fac j.world ev) ev = some (p, w)) :
    ∃ i ok b id d caller acc, ev = .deliver i ok ∧
      j.fac.receipts[i]? = some (.create b id d caller) ∧ p = b.receiver ∧ acc.pool = w ∧
      PoolFactory.deploy cfg.fac { j.world with receipts := j.fac.receipts.eraseIdx i } b caller =
        some acc ∧
      (PoolFactory.step cfg.fac j.world ev).accounts = j.fac.accounts.insert b.receiver acc ∧
      (PoolFactory.step cfg.fac j.world ev).wl = j.sys.wl := by
  cases ev with
  | deliver i ok =>
    have hrec : j.world.receipts = j.fac.receipts := rfl
    have hacc : j.world.accounts = j.fac.accounts := rfl
    simp only [newborn, hrec, hacc] at h
    cases hr : j.fac.receipts[i]? with
    | none => rw [hr] at h; cases h
    | some r =>
      rw [hr] at h
      cases r with
      | callback id d caller b => cases h
      | whitelist c id => cases h
      | create b id d caller =>
        simp only [PoolFactory.step, hrec, hr, PoolFactory.execReceipt] at h ⊢
        cases hd : (if ok then PoolFactory.deploy cfg.fac
            { j.world with receipts := j.fac.receipts.eraseIdx i } b caller else none) with
        | none =>
          rw [hd] at h
          simp only [hacc] at h
          split at h
          · rename_i h1 h2
            rw [h1] at h2; cases h2
          · cases h
        | some acc =>
          rw [hd] at h
          have hd' : PoolFactory.deploy cfg.fac
              { j.world with receipts := j.fac.receipts.eraseIdx i } b caller = some acc := by
            cases ok with
            | true => exact hd
            | false => cases hd
          simp only [UMap.get_insert_self] at h
          split at h
          · rename_i h1 h2
            cases h2
            split at h
            · cases h
              exact ⟨i, ok, b, id, d, caller, acc, rfl, hr, rfl, rfl, hd', rfl, rfl⟩
            · cases h
          · cases h
  | _ => cases h

/-- Without a newborn pool the factory has the same accounts. -/
theorem newborn_none {cfg : JCfg} {a : Lockup.NewArgs} {j : Joint} (hj : JInv cfg a j)
    {ev : PoolFactory.Ev}
    (h : newborn j.world (PoolFactory.step cfg.fac j.world ev) ev = none) :
    (PoolFactory.step cfg.fac j.world ev).accounts = j.fac.accounts := by
  have hrec : j.world.receipts = j.fac.receipts := rfl
  have hacc : j.world.accounts = j.fac.accounts := rfl
  cases ev with
  | create who att poolId owner key fee => simp only [PoolFactory.step]; split <;> rfl
  | callCallback who att id d caller => rw [PoolFactory.callCallback_step]; rfl
  | deliver i ok =>
    simp only [newborn, hrec, hacc] at h
    cases hr : j.fac.receipts[i]? with
    | none => simp only [PoolFactory.step, hrec, hr, hacc]
    | some r =>
      rw [hr] at h
      cases r with
      | callback id d caller b =>
        simp only [PoolFactory.step, hrec, hr, PoolFactory.execReceipt]; split <;> rfl
      | whitelist c id =>
        simp only [PoolFactory.step, hrec, hr, PoolFactory.execReceipt]; split <;> rfl
      | create b id d caller =>
        obtain ⟨base, hf⟩ := hj.fac
        obtain ⟨_, _, hcode, _⟩ := hf.receipts _ (List.mem_of_getElem? hr)
        simp only [PoolFactory.step, hrec, hr, PoolFactory.execReceipt] at h ⊢
        cases hd : (if ok then PoolFactory.deploy cfg.fac
            { j.world with receipts := j.fac.receipts.eraseIdx i } b caller else none) with
        | none => rfl
        | some acc =>
          rw [hd] at h
          have hd' : PoolFactory.deploy cfg.fac
              { j.world with receipts := j.fac.receipts.eraseIdx i } b caller = some acc := by
            cases ok with
            | true => exact hd
            | false => cases hd
          obtain ⟨_, _, g3, g4, _⟩ := PoolFactory.deploy_some hd'
          have g5 : j.fac.accounts.get b.receiver = none := by
            cases hg : j.fac.accounts.get b.receiver with
            | none => rfl
            | some x =>
              have : j.fac.accounts.contains b.receiver = true := contains_get.mpr ⟨x, hg⟩
              have g3' : j.fac.accounts.contains b.receiver = false := g3
              rw [this] at g3'; cases g3'
          simp only [UMap.get_insert_self, g5, g4, hcode, if_true] at h
          cases h
  | whitelistCall e => simp only [PoolFactory.step]; split <;> rfl
  | income n => rfl
  | epochs n => rfl

/-- The whitelist after an event of the factory. -/
theorem fac_wl {cfg : JCfg} {j : Joint} {ev : PoolFactory.Ev} (hev : ∀ e, ev ≠ .whitelistCall e) :
    (PoolFactory.step cfg.fac j.world ev).wl = j.sys.wl ∨
    ∃ i ok id, ev = .deliver i ok ∧
      j.fac.receipts[i]? = some (.whitelist j.fac.c.whitelistId id) ∧
      (PoolFactory.step cfg.fac j.world ev).wl =
        Whitelist.step cfg.sys.validAccountId j.sys.wl ⟨cfg.factory, 0, .addPool id⟩ := by
  have hrec : j.world.receipts = j.fac.receipts := rfl
  cases ev with
  | create who att poolId owner key fee => left; simp only [PoolFactory.step]; split <;> rfl
  | callCallback who att id d caller => left; rw [PoolFactory.callCallback_step]; rfl
  | income n => exact .inl rfl
  | epochs n => exact .inl rfl
  | whitelistCall e => exact absurd rfl (hev e)
  | deliver i ok =>
    simp only [PoolFactory.step, hrec]
    cases hr : j.fac.receipts[i]? with
    | none => exact .inl rfl
    | some r =>
      cases r with
      | create b id d caller => left; simp only [PoolFactory.execReceipt]; split <;> rfl
      | callback id d caller b => left; simp only [PoolFactory.execReceipt]; split <;> rfl
      | whitelist c id =>
        simp only [PoolFactory.execReceipt]
        split
        · rename_i hc
          have hc' : c = j.fac.c.whitelistId := hc
          subst hc'
          exact .inr ⟨i, ok, id, rfl, hr, rfl⟩
        · exact .inl rfl

theorem poolCfg_eq (cfg : JCfg) (p : AccountId) :
    PoolFactory.poolCfg cfg.fac p = cfg.sys.pool p := rfl

/-- The deployment by the factory is a deployment of a pool in the system. -/
theorem create_newborn {cfg : JCfg} {a : Lockup.NewArgs} {j : Joint} (hj : JInv cfg a j) {i : Nat}
    {b : PoolFactory.Batch} {id : AccountId} {d : Nat} {caller : AccountId}
    {acc : PoolFactory.Created}
    (hr : j.fac.receipts[i]? = some (.create b id d caller))
    (hd : PoolFactory.deploy cfg.fac { j.world with receipts := j.fac.receipts.eraseIdx i } b caller =
        some acc) :
    step cfg.sys j.sys (.create b.receiver cfg.factory b.owner b.key b.fee b.deposit j.fac.epoch) =
      { j.sys with pools := j.sys.pools.insert b.receiver acc.pool } := by
  obtain ⟨g1, g2, g3, _, _, _, _, p, effs, g8, g9⟩ := PoolFactory.deploy_some hd
  have g1' : directSub cfg.factory b.receiver = true := g1
  have g2' : cfg.existing b.receiver = false := g2
  have g3' : j.fac.accounts.contains b.receiver = false := g3
  obtain ⟨base, hf⟩ := hj.fac
  obtain ⟨rfl, rfl, _, _, _, _, _, _, hmin, hmax⟩ := hf.receipts _ (List.mem_of_getElem? hr)
  have h1 : b.receiver ≠ cfg.sys.lockup := by
    intro e
    rw [e] at g1' g2'
    rw [hj.lockup g1'] at g2'; cases g2'
  have h2 : ¬ j.sys.pools.contains b.receiver = true := by
    intro hc
    rw [hj.others _ hc g1' g2'] at g3'; cases g3'
  have h3 : StakingPool.guaranteeFund < b.deposit := by
    unfold PoolFactory.minAttachedBalance at hmin; unfold StakingPool.guaranteeFund; omega
  have g8' : StakingPool.new (StakingPool.initEnv (cfg.sys.pool b.receiver) cfg.factory b.deposit
      j.fac.epoch) false b.owner b.key b.fee = .ok (p, effs) := g8
  have g9' : acc.pool = StakingPool.initWorld p effs b.deposit j.fac.epoch := g9
  simp only [step, create]
  rw [if_neg (by simp only [not_or]; exact ⟨h1, h2⟩), if_pos ⟨h3, hmax⟩, g8', g9']

/-- The system part. -/
theorem jstep_sys {cfg : JCfg} {a : Lockup.NewArgs} {j : Joint} (hj : JInv cfg a j) (ev : JEv) :
    (jstep cfg j ev).sys = run cfg.sys j.sys (sysEvs cfg j ev) := by
  cases ev with
  | sys ev =>
    cases ev with
    | whitelist ev => simp only [jstep, sysEvs]; split <;> rfl
    | create p deployer owner key fee balance epoch => simp only [jstep, sysEvs]; split <;> rfl
    | _ => rfl
  | fac ev =>
    have key : ∀ ev, (∀ e, ev ≠ PoolFactory.Ev.whitelistCall e) →
        (facStep cfg j ev).sys = run cfg.sys j.sys (sysEvs cfg j (.fac ev)) := by
      intro ev hev
      have hs : (facStep cfg j ev).sys = { j.sys with
          wl := (PoolFactory.step cfg.fac j.world ev).wl,
          pools := match newborn j.world (PoolFactory.step cfg.fac j.world ev) ev with
            | some (p, w) => j.sys.pools.insert p w
            | none => j.sys.pools } := rfl
      rw [hs]
      cases hn : newborn j.world (PoolFactory.step cfg.fac j.world ev) ev with
      | some x =>
        obtain ⟨p, w⟩ := x
        obtain ⟨i, ok, b, id, d, caller, acc, rfl, hr, rfl, rfl, hd, _, hwl⟩ := newborn_some hn
        have : sysEvs cfg j (.fac (.deliver i ok)) =
            [.create b.receiver cfg.factory b.owner b.key b.fee b.deposit j.fac.epoch] := by
          simp only [sysEvs, hr, hn]
        rw [this, hwl]
        simp only [run]
        rw [create_newborn hj hr hd]
      | none =>
        simp only
        rcases fac_wl (cfg := cfg) (j := j) hev with hw | ⟨i, ok, id, rfl, hr, hw⟩
        · rw [hw]
          have : run cfg.sys j.sys (sysEvs cfg j (.fac ev)) = j.sys := by
            cases ev with
            | deliver i ok =>
              cases hr : j.fac.receipts[i]? with
              | none => simp only [sysEvs, hr, run]
              | some r =>
                cases r with
                | create b id d caller => simp only [sysEvs, hr, hn, run]
                | callback id d caller b => simp only [sysEvs, hr, run]
                | whitelist c id =>
                  simp only [sysEvs, hr]
                  split
                  · rename_i hc
                    have hrec : j.world.receipts = j.fac.receipts := rfl
                    have hc' : c = j.world.c.whitelistId := hc
                    simp only [PoolFactory.step, hrec, hr, PoolFactory.execReceipt, if_pos hc'] at hw
                    simp only [run, step]
                    have hw' : Whitelist.step cfg.sys.validAccountId j.sys.wl
                      ⟨cfg.factory, 0, .addPool id⟩ = j.sys.wl := hw
                    rw [hw']
                  · rfl
            | _ => rfl
          rw [this]
        · rw [hw]
          simp only [sysEvs, hr, if_true, run, step]
    cases ev with
    | whitelistCall e => rfl
    | _ => exact key _ (by simp)

/-- The factory is careful. -/
theorem jstep_careful {cfg : JCfg} {a : Lockup.NewArgs} {j : Joint} (hj : JInv cfg a j) (ev : JEv)
    (hc : ∀ who att p r, ev = .sys (.whitelist ⟨who, att, .addPool p⟩) → who ≠ cfg.factory →
      Whitelist.exec (Whitelist.mkEnv cfg.sys.validAccountId who att) j.sys.wl (.addPool p) = .ok r →
      j.sys.pools.contains p = true) :
    Careful cfg.sys j.sys (sysEvs cfg j ev) := by
  cases ev with
  | sys ev =>
    cases ev with
    | whitelist ev =>
      simp only [sysEvs]
      split
      · trivial
      · rename_i hne
        refine ⟨?_, trivial⟩
        rintro who att p r he hx
        cases he
        exact hc who att p r rfl hne hx
    | create p deployer owner key fee balance epoch =>
      simp only [sysEvs]
      split
      · trivial
      · simp [Careful]
    | _ => simp [sysEvs, Careful]
  | fac ev =>
    cases ev with
    | deliver i ok =>
      cases hr : j.fac.receipts[i]? with
      | none => simp only [sysEvs, hr]; trivial
      | some r =>
        cases r with
        | create b id d caller => simp only [sysEvs, hr]; split <;> simp [Careful]
        | callback id d caller b => simp only [sysEvs, hr]; trivial
        | whitelist c id =>
          simp only [sysEvs, hr]
          split
          · refine ⟨?_, trivial⟩
            rintro who att p r he _
            cases he
            obtain ⟨base, hf⟩ := hj.fac
            obtain ⟨_, hacc⟩ := hf.receipts _ (List.mem_of_getElem? hr)
            have hacc' : j.fac.accounts.contains id = true := hacc
            obtain ⟨acc, hacc'⟩ := contains_get.mp hacc'
            obtain ⟨evs, he⟩ := hj.created _ _ hacc'
            exact contains_get.mpr ⟨_, he⟩
          · trivial
    | _ => trivial

/-! ## The invariant -/

theorem finv_runs {cfg : PoolFactory.Cfg} {w : PoolFactory.World} (h : ∃ base, PoolFactory.FInv cfg base w)
    (evs : List PoolFactory.Ev) : ∃ base, PoolFactory.FInv cfg base (PoolFactory.run cfg w evs) := by
  obtain ⟨base, h⟩ := h
  exact ⟨_, PoolFactory.finv_run h evs⟩

/-- Pools of the factory after an event of the system. -/
theorem created_step {cfg : JCfg} {s : Sys} (hne : ∀ p w, s.pools.get p = some w → p ≠ cfg.sys.lockup)
    {p : AccountId} {w : StakingPool.World}
    (h : ∃ evs, s.pools.get p = some (StakingPool.run (cfg.sys.pool p) w evs)) (ev : Ev) :
    ∃ evs, (step cfg.sys s ev).pools.get p = some (StakingPool.run (cfg.sys.pool p) w evs) := by
  obtain ⟨evs, h⟩ := h
  rcases step_pools hne ev with he | ⟨q, w', e, hq, he⟩ | ⟨q, _, _, _, _, _, _, w', _, hq, he⟩
  · exact ⟨evs, by rw [he]; exact h⟩
  · rw [he]
    by_cases hpq : q = p
    · subst hpq
      rw [h] at hq
      cases hq
      exact ⟨evs ++ [e], by rw [UMap.get_insert_self, pool_run_append]; rfl⟩
    · exact ⟨evs, by rw [UMap.get_insert_ne hpq]; exact h⟩
  · rw [he]
    have hpq : q ≠ p := by rintro rfl; rw [h] at hq; cases hq
    exact ⟨evs, by rw [UMap.get_insert_ne hpq]; exact h⟩

/-- New pools come from deployments. -/
theorem contains_step {cfg : Cfg} {s : Sys} (hne : ∀ p w, s.pools.get p = some w → p ≠ cfg.lockup)
    {ev : Ev} {p : AccountId} (h : (step cfg s ev).pools.contains p = true) :
    s.pools.contains p = true ∨
    ∃ deployer owner key fee balance epoch, ev = .create p deployer owner key fee balance epoch := by
  rcases step_pools hne ev with he | ⟨q, w', e, hq, he⟩ | ⟨q, _, _, _, _, _, _, w', hev, hq, he⟩
  · rw [he] at h; exact .inl h
  · rw [he] at h
    left
    obtain ⟨v, hv⟩ := contains_get.mp h
    rw [UMap.get_insert] at hv
    split at hv
    · rename_i e'; subst e'; exact contains_get.mpr ⟨_, hq⟩
    · exact contains_get.mpr ⟨_, hv⟩
  · rw [he] at h
    obtain ⟨v, hv⟩ := contains_get.mp h
    rw [UMap.get_insert] at hv
    split at hv
    · rename_i e'; subst e'; exact .inr ⟨_, _, _, _, _, _, hev⟩
    · exact .inl (contains_get.mpr ⟨_, hv⟩)

theorem jinv_step {cfg : JCfg} {a : Lockup.NewArgs} {j : Joint} (hj : JInv cfg a j) (ev : JEv)
    (hc : ∀ who att p r, ev = .sys (.whitelist ⟨who, att, .addPool p⟩) → who ≠ cfg.factory →
      Whitelist.exec (Whitelist.mkEnv cfg.sys.validAccountId who att) j.sys.wl (.addPool p) = .ok r →
      j.sys.pools.contains p = true) :
    JInv cfg a (jstep cfg j ev) := by
  have hsys : Inv cfg.sys a (jstep cfg j ev).sys := by
    rw [jstep_sys hj ev]
    exact (inv_run hj.sys (jstep_careful hj ev hc)).1
  have hfac : ∃ base, PoolFactory.FInv cfg.fac base (jstep cfg j ev).world := by
    rw [jstep_world hj ev]
    exact finv_runs hj.fac _
  have rest : (∀ p acc, (jstep cfg j ev).fac.accounts.get p = some acc → ∃ evs,
        (jstep cfg j ev).sys.pools.get p = some (StakingPool.run (cfg.sys.pool p) acc.pool evs)) ∧
      (∀ p, (jstep cfg j ev).sys.pools.contains p = true → directSub cfg.factory p = true →
        cfg.existing p = false → (jstep cfg j ev).fac.accounts.contains p = true) := by
    have other : ∀ ev, (∀ p deployer owner key fee balance epoch,
          ev = Ev.create p deployer owner key fee balance epoch →
          ¬ (directSub cfg.factory p = true ∧ cfg.existing p = false)) →
        (∀ p acc, j.fac.accounts.get p = some acc → ∃ evs, (step cfg.sys j.sys ev).pools.get p =
          some (StakingPool.run (cfg.sys.pool p) acc.pool evs)) ∧
        (∀ p, (step cfg.sys j.sys ev).pools.contains p = true → directSub cfg.factory p = true →
          cfg.existing p = false → j.fac.accounts.contains p = true) := by
      intro ev he
      refine ⟨fun p acc h => created_step hj.ne (hj.created p acc h) ev, fun p h h1 h2 => ?_⟩
      rcases contains_step hj.ne h with h | ⟨_, _, _, _, _, _, rfl⟩
      · exact hj.others p h h1 h2
      · exact absurd ⟨h1, h2⟩ (he _ _ _ _ _ _ _ rfl)
    have factory : ∀ ev : PoolFactory.Ev,
        (∀ p acc, (facStep cfg j ev).fac.accounts.get p = some acc → ∃ evs,
          (facStep cfg j ev).sys.pools.get p =
            some (StakingPool.run (cfg.sys.pool p) acc.pool evs)) ∧
        (∀ p, (facStep cfg j ev).sys.pools.contains p = true → directSub cfg.factory p = true →
          cfg.existing p = false → (facStep cfg j ev).fac.accounts.contains p = true) := by
      intro ev
      cases hn : newborn j.world (PoolFactory.step cfg.fac j.world ev) ev with
      | none =>
        have hp : (facStep cfg j ev).sys.pools = j.sys.pools := by simp only [facStep, hn]
        have ha : (facStep cfg j ev).fac.accounts = j.fac.accounts := newborn_none hj hn
        rw [hp, ha]
        exact ⟨hj.created, hj.others⟩
      | some x =>
        obtain ⟨p, w⟩ := x
        have hp : (facStep cfg j ev).sys.pools = j.sys.pools.insert p w := by
          simp only [facStep, hn]
        obtain ⟨i, ok, b, id, d, caller, acc, rfl, hr, rfl, rfl, hd, ha, hwl⟩ := newborn_some hn
        have ha' : (facStep cfg j (.deliver i ok)).fac.accounts =
          j.fac.accounts.insert b.receiver acc := ha
        rw [hp, ha']
        refine ⟨fun p acc' h => ?_, fun p h h1 h2 => ?_⟩
        · rw [UMap.get_insert] at h
          split at h
          · rename_i e
            cases h
            subst e
            exact ⟨[], by rw [UMap.get_insert_self]; rfl⟩
          · rename_i e
            rw [UMap.get_insert_ne e]
            exact hj.created p acc' h
        · obtain ⟨v, hv⟩ := contains_get.mp h
          rw [UMap.get_insert] at hv
          split at hv
          · rename_i e
            subst e
            exact contains_get.mpr ⟨acc, UMap.get_insert_self ..⟩
          · exact contains_insert (hj.others p (contains_get.mpr ⟨v, hv⟩) h1 h2)
    cases ev with
    | sys ev =>
      cases ev with
      | whitelist e =>
        simp only [jstep]
        split
        · exact ⟨hj.created, hj.others⟩
        · exact other _ (by simp)
      | create p deployer owner key fee balance epoch =>
        simp only [jstep]
        split
        · exact ⟨hj.created, hj.others⟩
        · rename_i hne
          refine other _ ?_
          intro _ _ _ _ _ _ _ he
          cases he
          exact hne
      | _ => exact other _ (by simp)
    | fac ev =>
      cases ev with
      | whitelistCall e => exact ⟨hj.created, hj.others⟩
      | _ => exact factory _
  exact ⟨hsys, hfac, hj.lockup, rest.1, rest.2⟩

theorem jinv_start {cfg : JCfg} {a : Lockup.NewArgs} {j0 : Joint} (h : JStarted cfg a j0) :
    JInv cfg a j0 := by
  refine ⟨started_inv h.sys, ?_, h.lockup, h.created, h.others⟩
  obtain ⟨w0, fevs, hs, he⟩ := h.fac
  rw [he]
  exact ⟨_, PoolFactory.reach_inv hs fevs⟩

theorem fac_run_append (cfg : PoolFactory.Cfg) (w : PoolFactory.World) (l1 l2 : List PoolFactory.Ev) :
    PoolFactory.run cfg w (l1 ++ l2) = PoolFactory.run cfg (PoolFactory.run cfg w l1) l2 := by
  simp [PoolFactory.run]

/-- A careful joint history: invariant, history of the factory, careful history of the system. -/
theorem jrun_all {cfg : JCfg} {a : Lockup.NewArgs} {j : Joint} (hj : JInv cfg a j) {evs : List JEv}
    (hc : JCareful cfg j evs) :
    JInv cfg a (jrun cfg j evs) ∧
    (jrun cfg j evs).world = PoolFactory.run cfg.fac j.world (facHist evs) ∧
    (jrun cfg j evs).sys = run cfg.sys j.sys (sysHist cfg j evs) ∧
    Careful cfg.sys j.sys (sysHist cfg j evs) := by
  induction evs generalizing j with
  | nil => exact ⟨hj, rfl, rfl, trivial⟩
  | cons ev t ih =>
    have hj' := jinv_step hj ev hc.1
    obtain ⟨h1, h2, h3, h4⟩ := ih hj' hc.2
    refine ⟨h1, ?_, ?_, ?_⟩
    · simp only [jrun, facHist]
      rw [h2, jstep_world hj ev, ← fac_run_append]
    · simp only [jrun, sysHist]
      rw [h3, jstep_sys hj ev, ← run_append]
    · simp only [sysHist]
      refine careful_append.mpr ⟨jstep_careful hj ev hc.1, ?_⟩
      rw [← jstep_sys hj ev]
      exact h4

/-! ## Who may list pools -/

theorem wl_foundation {cfg : JCfg} {a : Lockup.NewArgs} {j : Joint} (hj : JInv cfg a j) (ev : JEv) :
    (jstep cfg j ev).sys.wl.foundation = j.sys.wl.foundation := by
  have : (jstep cfg j ev).sys.wl = (jstep cfg j ev).world.wl := rfl
  rw [this, jstep_world hj ev]
  have key : ∀ (l : List PoolFactory.Ev) (w : PoolFactory.World),
      (PoolFactory.run cfg.fac w l).wl.foundation = w.wl.foundation := by
    intro l
    induction l with
    | nil => intro w; rfl
    | cons e t ih =>
      intro w
      show (PoolFactory.run cfg.fac (PoolFactory.step cfg.fac w e) t).wl.foundation = _
      rw [ih]
      rcases PoolFactory.wl_step cfg.fac w e with h | ⟨wev, h, _⟩
      · rw [h]
      · rw [h, Whitelist.step_foundation]
  exact key _ _

/-- Under `FoundationTrusts` only the factory is entitled to list pools. -/
theorem entitled_step {cfg : JCfg} {j : Joint} {ev : JEv} {a : Lockup.NewArgs} (hj : JInv cfg a j)
    (h : ∀ f, j.sys.wl.factoryWhitelist.contains f = true → f = cfg.factory)
    (hf : ∀ att f, ev = .sys (.whitelist ⟨j.sys.wl.foundation, att, .addFactory f⟩) →
      f = cfg.factory) :
    ∀ f, (jstep cfg j ev).sys.wl.factoryWhitelist.contains f = true → f = cfg.factory := by
  have wcase : ∀ wev : Whitelist.Ev, (∀ f, wev = ⟨j.sys.wl.foundation, 0, .addFactory f⟩ →
      f = cfg.factory) → ∀ f, (Whitelist.step cfg.sys.validAccountId j.sys.wl
        wev).factoryWhitelist.contains f = true → f = cfg.factory := by
    rintro ⟨who, att, c⟩ hw f hc
    rcases Whitelist.step_cases cfg.sys.validAccountId j.sys.wl ⟨who, att, c⟩ with ⟨b, hx⟩ | ⟨_, hx⟩
    · have hx' := Whitelist.exec_ok.mp hx
      generalize Whitelist.step cfg.sys.validAccountId j.sys.wl ⟨who, att, c⟩ = s' at hx' hc
      obtain ⟨h0, hx'⟩ := hx'
      subst h0
      cases c with
      | addPool p => obtain ⟨_, _, rfl, _⟩ := hx'; exact h f hc
      | removePool p => obtain ⟨_, _, rfl, _⟩ := hx'; exact h f hc
      | addFactory g =>
        obtain ⟨_, rfl, rfl, _⟩ := hx'
        obtain ⟨v, hv⟩ := contains_get.mp hc
        simp only [UMap.get_insert] at hv
        split at hv
        · rename_i e; subst e; exact hw g rfl
        · exact h f (contains_get.mpr ⟨v, hv⟩)
      | removeFactory g =>
        obtain ⟨_, _, rfl, _⟩ := hx'
        obtain ⟨v, hv⟩ := contains_get.mp hc
        simp only [UMap.get_remove] at hv
        split at hv
        · cases hv
        · exact h f (contains_get.mpr ⟨v, hv⟩)
    · rw [hx] at hc; exact h f hc
  cases ev with
  | sys ev =>
    cases ev with
    | whitelist wev =>
      simp only [jstep]
      split
      · exact h
      · exact wcase wev (fun f he => hf 0 f (by rw [he]))
    | create p deployer owner key fee balance epoch =>
      simp only [jstep]
      split
      · exact h
      · intro f; rw [step_wl hj.ne _ (by simp)]; exact h f
    | _ =>
      simp only [jstep]
      intro f; rw [step_wl hj.ne _ (by simp)]; exact h f
  | fac ev =>
    have key : ∀ ev, (∀ e, ev ≠ PoolFactory.Ev.whitelistCall e) →
        ∀ f, (facStep cfg j ev).sys.wl.factoryWhitelist.contains f = true → f = cfg.factory := by
      intro ev hev
      have hw : (facStep cfg j ev).sys.wl = (PoolFactory.step cfg.fac j.world ev).wl := rfl
      rw [hw]
      rcases fac_wl (cfg := cfg) (j := j) hev with h1 | ⟨i, ok, id, _, _, h1⟩
      · rw [h1]; exact h
      · rw [h1]; exact wcase _ (by simp)
    cases ev with
    | whitelistCall e => exact h
    | _ => exact key _ (by simp)

/-- Under `FoundationTrusts` nobody but the factory lists anything. -/
theorem nobody_lists {cfg : JCfg} {j : Joint} {evs : List JEv} {foundation : AccountId}
    (hfnd : j.sys.wl.foundation = foundation)
    (h : ∀ f, j.sys.wl.factoryWhitelist.contains f = true → f = cfg.factory)
    (ht : FoundationTrusts cfg foundation evs) {ev : JEv} (hm : ev ∈ evs) :
    ∀ who att p r, ev = .sys (.whitelist ⟨who, att, .addPool p⟩) → who ≠ cfg.factory →
      Whitelist.exec (Whitelist.mkEnv cfg.sys.validAccountId who att) j.sys.wl (.addPool p) ≠ .ok r := by
  rintro who att p ⟨s', b⟩ rfl hne hx
  obtain ⟨rfl, _, hw, _⟩ := Whitelist.exec_ok.mp hx
  rcases hw with hw | hw
  · exact hne (h who hw)
  · rw [hfnd] at hw
    subst hw
    exact ht.1 _ _ hm

theorem trusts_careful {cfg : JCfg} {a : Lockup.NewArgs} {j : Joint} (hj : JInv cfg a j)
    {evs : List JEv} (ht : FoundationTrusts cfg j.sys.wl.foundation evs)
    (h : ∀ f, j.sys.wl.factoryWhitelist.contains f = true → f = cfg.factory) :
    JCareful cfg j evs := by
  induction evs generalizing j with
  | nil => trivial
  | cons ev t ih =>
    have hc : ∀ who att p r, ev = .sys (.whitelist ⟨who, att, .addPool p⟩) → who ≠ cfg.factory →
        Whitelist.exec (Whitelist.mkEnv cfg.sys.validAccountId who att) j.sys.wl (.addPool p) = .ok r →
        j.sys.pools.contains p = true := fun who att p r he hne hx =>
      absurd hx (nobody_lists rfl h ht (List.mem_cons_self ..) who att p r he hne)
    refine ⟨hc, ih (jinv_step hj ev hc) ?_ ?_⟩
    · rw [wl_foundation hj]
      exact ⟨fun att p hm => ht.1 att p (List.mem_cons_of_mem _ hm),
        fun att f hm => ht.2 att f (List.mem_cons_of_mem _ hm)⟩
    · exact entitled_step hj h (fun att f he => ht.2 att f (he ▸ List.mem_cons_self ..))

end Verif.System
