import Verif.System.Props2
import Verif.Lockup.Props5
import Verif.StakingPool.Props6

/-! # The owner and the foundation bring tokens back from real pools: single events -/

namespace Verif.System

open Verif

/-! ## Events of the system as events of the lockup world -/

/-- `L` is the lockup of `s`, with `H` as the (otherwise unused) holdings of the pools. -/
def Rel (H : Nat) (s : Sys) (L : Lockup.World) : Prop := L = { s.lk with held := H }

theorem Rel.lk {H : Nat} {s : Sys} {L : Lockup.World} (h : Rel H s L) :
    s.lk = { L with held := s.lk.held } := by
  unfold Rel at h; rw [h]

theorem rel_refl (H : Nat) (s : Sys) : Rel H s { s.lk with held := H } := rfl

theorem rel_call {cfg : Cfg} {H : Nat} {s : Sys} {L : Lockup.World} (h : Rel H s L)
    (who : AccountId) (att : Nat) (c : Lockup.Call) :
    Rel H (step cfg s (.call who att c)) (Lockup.step cfg.lk L (.call who att c)) := by
  unfold Rel at h ⊢
  rw [h]
  exact lk_step_held cfg.lk s.lk H (.inl ⟨_, _, _, rfl⟩)

theorem rel_callback {cfg : Cfg} {H : Nat} {s : Sys} {L : Lockup.World} (h : Rel H s L) (i : Nat) :
    Rel H (step cfg s (.callback i)) (Lockup.step cfg.lk L (.callback i)) := by
  unfold Rel at h ⊢
  rw [h]
  exact lk_step_held cfg.lk s.lk H (.inr (.inl ⟨_, rfl⟩))

theorem rel_arrive {cfg : Cfg} {H : Nat} {s : Sys} {L : Lockup.World} (h : Rel H s L) (x : Nat) :
    Rel H (step cfg s (.arrive x)) (Lockup.step cfg.lk L (.arrive x)) := by
  unfold Rel at h ⊢
  rw [h]
  exact lk_step_held cfg.lk s.lk H (.inr (.inr (.inl ⟨_, rfl⟩)))

/-- A balance query answered by a pool. -/
theorem rel_view {cfg : Cfg} {H : Nat} {s : Sys} {L : Lockup.World} (h : Rel H s L) {i : Nat}
    {ext : Lockup.Ext} {cb : Lockup.Callback} {p : AccountId} {w : StakingPool.World} {v : Nat}
    {view : Nat → StakingPool.Pool → AccountId → R Nat} (r : Lockup.PResult)
    (hi : L.pend[i]? = some ⟨ext, some cb, .sent⟩) (hv : viewOf ext = some (p, view))
    (hw : s.pools.get p = some w) (hx : view w.epoch w.pool cfg.lockup = .ok v) (hH : v ≤ H) :
    Rel H (step cfg s (.execute i true r)) (Lockup.step cfg.lk L (.execute i (.balance v))) ∧
    (step cfg s (.execute i true r)).pools = s.pools ∧
    (step cfg s (.execute i true r)).wl = s.wl ∧ (step cfg s (.execute i true r)).poll = s.poll := by
  unfold Rel at h ⊢
  subst h
  have hi' : s.lk.pend[i]? = some ⟨ext, some cb, .sent⟩ := hi
  have hc : callOf ext = none := by cases ext <;> simp_all [callOf, viewOf]
  have hs : step cfg s (.execute i true r) = { s with lk := { s.lk with
      pend := s.lk.pend.set i ⟨ext, some cb, .done (.balance v)⟩ } } := by
    show execute cfg s i true r = _
    simp only [execute, hi', runExt, hc, hv, hw, viewPool, hx]
    rfl
  rw [hs]
  refine ⟨?_, rfl, rfl, rfl⟩
  show Lockup.execute cfg.lk _ i _ = _
  simp only [Lockup.execute, hi]
  have : Lockup.runExt cfg.lk { s.lk with held := H } ⟨ext, some cb, .sent⟩ (.balance v) =
      (.balance v, { s.lk with held := H }) := by
    cases ext <;> simp_all [Lockup.runExt, viewOf]
  rw [this]

/-- A call accepted by a pool that pays nothing. -/
theorem rel_accept {cfg : Cfg} {H : Nat} {s : Sys} {L : Lockup.World} (h : Rel H s L) {i : Nat}
    {ext : Lockup.Ext} {cb : Lockup.Callback} {p : AccountId} {w : StakingPool.World}
    {c : StakingPool.Call} {q : StakingPool.Pool} {effs : List StakingPool.Eff} (r : Lockup.PResult)
    (hi : L.pend[i]? = some ⟨ext, some cb, .sent⟩) (hc : callOf ext = some (p, 0, c))
    (hd : (∃ x, ext = .poolUnstake p x) ∨ ext = .poolUnstakeAll p)
    (hw : s.pools.get p = some w)
    (hx : StakingPool.exec (StakingPool.mkEnv (cfg.pool p) w cfg.lockup 0 []) w.pool c =
      .ok (q, effs)) (hpaid : StakingPool.paidTo cfg.lockup effs = 0) :
    Rel H (step cfg s (.execute i true r)) (Lockup.step cfg.lk L (.execute i .unit)) ∧
    (step cfg s (.execute i true r)).pools =
      s.pools.insert p (StakingPool.commit w cfg.lockup 0 c q effs) ∧
    (step cfg s (.execute i true r)).wl = s.wl ∧ (step cfg s (.execute i true r)).poll = s.poll := by
  unfold Rel at h ⊢
  subst h
  have hi' : s.lk.pend[i]? = some ⟨ext, some cb, .sent⟩ := hi
  have hs : step cfg s (.execute i true r) = { s with
      pools := s.pools.insert p (StakingPool.commit w cfg.lockup 0 c q effs)
      lk := { s.lk with pend := s.lk.pend.set i ⟨ext, some cb, .done .unit⟩ } } := by
    show execute cfg s i true r = _
    simp only [execute, hi', runExt, hc, hw, callPool, hx, hpaid]
    rfl
  rw [hs]
  refine ⟨?_, rfl, rfl, rfl⟩
  show Lockup.execute cfg.lk _ i _ = _
  simp only [Lockup.execute, hi]
  have : Lockup.runExt cfg.lk { s.lk with held := H } ⟨ext, some cb, .sent⟩ .unit =
      (.unit, { s.lk with held := H }) := by
    rcases hd with ⟨x, rfl⟩ | rfl <;> rfl
  rw [this]

/-- A call without deposit rejected by a pool. -/
theorem rel_reject {cfg : Cfg} {H : Nat} {s : Sys} {L : Lockup.World} (h : Rel H s L) {i : Nat}
    {ext : Lockup.Ext} {cb : Lockup.Callback} {p : AccountId} {w : StakingPool.World}
    {c : StakingPool.Call} {m : String} (r : Lockup.PResult)
    (hi : L.pend[i]? = some ⟨ext, some cb, .sent⟩) (hc : callOf ext = some (p, 0, c))
    (hd : (∃ x, ext = .poolUnstake p x) ∨ ext = .poolUnstakeAll p ∨ ∃ x, ext = .poolWithdraw p x)
    (hw : s.pools.get p = some w)
    (hx : StakingPool.exec (StakingPool.mkEnv (cfg.pool p) w cfg.lockup 0 []) w.pool c = .error m) :
    Rel H (step cfg s (.execute i true r)) (Lockup.step cfg.lk L (.execute i .failed)) ∧
    (step cfg s (.execute i true r)).pools = s.pools ∧
    (step cfg s (.execute i true r)).wl = s.wl ∧ (step cfg s (.execute i true r)).poll = s.poll := by
  unfold Rel at h ⊢
  subst h
  have hi' : s.lk.pend[i]? = some ⟨ext, some cb, .sent⟩ := hi
  have hs : step cfg s (.execute i true r) = { s with lk := { s.lk with
      pend := s.lk.pend.set i ⟨ext, some cb, .done .failed⟩ } } := by
    show execute cfg s i true r = _
    simp only [execute, hi', runExt, hc, hw, callPool, hx]
    rfl
  rw [hs]
  refine ⟨?_, rfl, rfl, rfl⟩
  show Lockup.execute cfg.lk _ i _ = _
  simp only [Lockup.execute, hi]
  have : Lockup.runExt cfg.lk { s.lk with held := H } ⟨ext, some cb, .sent⟩ .failed =
      (.failed, { s.lk with held := H }) := by
    rcases hd with ⟨x, rfl⟩ | rfl | ⟨x, rfl⟩ <;> rfl
  rw [this]

/-- A withdrawal accepted by a pool. -/
theorem rel_withdraw {cfg : Cfg} {H : Nat} {s : Sys} {L : Lockup.World} (h : Rel H s L) {i : Nat}
    {cb : Lockup.Callback} {p : AccountId} {w : StakingPool.World} {x : Nat}
    {q : StakingPool.Pool} {effs : List StakingPool.Eff} (r : Lockup.PResult)
    (hi : L.pend[i]? = some ⟨.poolWithdraw p x, some cb, .sent⟩)
    (hw : s.pools.get p = some w)
    (hx : StakingPool.exec (StakingPool.mkEnv (cfg.pool p) w cfg.lockup 0 []) w.pool (.withdraw x) =
      .ok (q, effs)) (hpaid : StakingPool.paidTo cfg.lockup effs = x) (hH : x ≤ H) :
    Rel (H - x) (step cfg s (.execute i true r)) (Lockup.step cfg.lk L (.execute i .unit)) ∧
    (step cfg s (.execute i true r)).pools =
      s.pools.insert p (StakingPool.commit w cfg.lockup 0 (.withdraw x) q effs) ∧
    (step cfg s (.execute i true r)).wl = s.wl ∧ (step cfg s (.execute i true r)).poll = s.poll := by
  unfold Rel at h ⊢
  subst h
  have hi' : s.lk.pend[i]? = some ⟨.poolWithdraw p x, some cb, .sent⟩ := hi
  have hs : step cfg s (.execute i true r) = { s with
      pools := s.pools.insert p (StakingPool.commit w cfg.lockup 0 (.withdraw x) q effs)
      lk := { s.lk with incoming := s.lk.incoming + x,
                        pend := s.lk.pend.set i ⟨.poolWithdraw p x, some cb, .done .unit⟩ } } := by
    show execute cfg s i true r = _
    simp only [execute, hi', runExt, callOf, hw, callPool, hx, hpaid]
    rfl
  rw [hs]
  refine ⟨?_, rfl, rfl, rfl⟩
  show Lockup.execute cfg.lk _ i _ = _
  simp only [Lockup.execute, hi]
  have : Lockup.runExt cfg.lk { s.lk with held := H } ⟨.poolWithdraw p x, some cb, .sent⟩ .unit =
      (.unit, { s.lk with held := H - x, incoming := s.lk.incoming + x }) := by
    simp only [Lockup.runExt, reduceCtorEq, if_false, if_pos hH]
  rw [this]

end Verif.System
