import Verif.System.Props2
import Verif.System.Recover

/-! # The operations of the owner on a real pool, from the call to the callback -/

namespace Verif.System

open Verif

/-- What each operation of the owner is for the pool: the deposit and the method. -/
def poolCall : Lockup.OwnerCall → Option (Nat × StakingPool.Call)
  | .depositToStakingPool x => some (x, .deposit)
  | .depositAndStake x => some (x, .depositAndStake)
  | .withdrawFromStakingPool x => some (0, .withdraw x)
  | .stake x => some (0, .stake x)
  | .unstake x => some (0, .unstake x)
  | .unstakeAll => some (0, .unstakeAll)
  | _ => none

/-- The known deposit after a successful operation. -/
def knownAfter (known : Nat) : Lockup.OwnerCall → Nat
  | .depositToStakingPool x => known + x
  | .depositAndStake x => known + x
  | .withdrawFromStakingPool x => known - x
  | _ => known

/-- What the pool sends to the lockup in a successful operation. -/
def payout : Lockup.OwnerCall → Nat
  | .withdrawFromStakingPool x => x
  | _ => 0

/-- The owner calls, the pool executes the receipt, the callback runs. -/
def opRound (owner : AccountId) (k : Nat) (c : Lockup.OwnerCall) : List Ev :=
  [.call owner 0 (.owner c), .execute k true .failed, .callback k]

theorem callback_done {cfg : Lockup.Cfg} {W : Lockup.World} {s : Lockup.Lockup} {p : AccountId}
    {known att : Nat} {c : Lockup.OwnerCall} {pc : StakingPool.Call} {ext : Lockup.Ext}
    {cb : Lockup.Callback} (hpc : poolCall c = some (att, pc))
    (hpp : Lockup.poolPromise p c = some ⟨ext, some cb⟩)
    (hs : s.staking = some ⟨p, true, known⟩) (hk : known + att < two128) :
    Lockup.exec (Lockup.mkEnv cfg W cfg.self 0 (some .unit)) s (.callback cb) =
        .ok ({ s with staking := some ⟨p, false, knownAfter known c⟩ }, none) ∧
    Lockup.exec (Lockup.mkEnv cfg W cfg.self 0 (some .failed)) s (.callback cb) =
        .ok ({ s with staking := some ⟨p, false, known⟩ }, none) := by
  obtain ⟨h1, h2⟩ := Lockup.env_self cfg W .unit
  obtain ⟨h3, h4⟩ := Lockup.env_self cfg W .failed
  have hb : ∀ b, Lockup.setBusy s b = .ok { s with staking := some ⟨p, b, known⟩ } := by
    intro b; simp only [Lockup.setBusy, hs]; rfl
  have hu : Lockup.isPromiseSuccess (Lockup.mkEnv cfg W cfg.self 0 (some .unit)) = .ok true := rfl
  have hf : Lockup.isPromiseSuccess (Lockup.mkEnv cfg W cfg.self 0 (some .failed)) = .ok false := rfl
  cases c <;> simp only [poolCall, reduceCtorEq, Option.some.injEq, Prod.mk.injEq] at hpc <;>
    simp only [Lockup.poolPromise, Option.some.injEq, Lockup.Eff.mk.injEq] at hpp <;>
    obtain ⟨rfl, rfl⟩ := hpc <;> obtain ⟨rfl, rfl⟩ := hpp
  all_goals
    simp only [Lockup.exec, Lockup.execCallback, Lockup.onDeposit, Lockup.onWithdraw,
      Lockup.onStakeLike, h1, h2, h3, h4, ok_bind, hb, hu, hf, if_true, Bool.false_eq_true, if_false]
  all_goals refine ⟨?_, rfl⟩
  all_goals first
    | rfl
    | (have ha := addU128_ok.mpr ⟨hk, rfl⟩
       simp only [Lockup.increaseDeposit, Lockup.selected]
       show (do let d ← addU128 known _; _) >>= _ = _
       rw [ha]; rfl)

theorem op_calls {p : AccountId} {att : Nat} {c : Lockup.OwnerCall} {pc : StakingPool.Call}
    (hpc : poolCall c = some (att, pc)) : ∃ ext cb,
      (∀ q, Lockup.poolPromise q c ≠ none) ∧ Lockup.poolPromise p c = some ⟨ext, some cb⟩ ∧
      callOf ext = some (p, att, pc) ∧ ext.attached = att ∧ Lockup.opSpends c = att ∧
      Lockup.effQueried (some ⟨ext, some cb⟩) = [] := by
  cases c <;> simp only [poolCall, reduceCtorEq, Option.some.injEq, Prod.mk.injEq] at hpc <;>
    obtain ⟨rfl, rfl⟩ := hpc <;>
    exact ⟨_, _, (fun q h => by cases h), rfl, rfl, rfl, rfl, rfl⟩

/-- The receipt runs at the pool. -/
theorem op_round {cfg : Cfg} {s : Sys} {c : Lockup.OwnerCall} {att : Nat} {pc : StakingPool.Call}
    (hpc : poolCall c = some (att, pc)) (hamt : ∀ x, Lockup.opAmount c = some x → 0 < x ∧ x < two128)
    {p : AccountId} {known : Nat} (hs : s.lk.c.staking = some ⟨p, false, known⟩)
    (hterm : ∀ u st, s.lk.c.vesting ≠ .terminating u st) (ho : s.lk.c.owner ≠ cfg.lockup)
    (hbal : 0 < att → att + 35 * 10 ^ 23 ≤ s.lk.bal) (hk : known + att < two128)
    {w : StakingPool.World} (hw : s.pools.get p = some w) :
    (∀ q effs, StakingPool.exec (StakingPool.mkEnv (cfg.pool p) w cfg.lockup att []) w.pool pc =
        .ok (q, effs) →
      run cfg s (opRound s.lk.c.owner s.lk.pend.length c) = { s with
        pools := s.pools.insert p (StakingPool.commit w cfg.lockup att pc q effs)
        lk := { s.lk with
          c := { s.lk.c with staking := some ⟨p, false, knownAfter known c⟩ }
          bal := s.lk.bal - att
          incoming := s.lk.incoming + StakingPool.paidTo cfg.lockup effs } }) ∧
    (∀ err, StakingPool.exec (StakingPool.mkEnv (cfg.pool p) w cfg.lockup att []) w.pool pc =
        .error err →
      run cfg s (opRound s.lk.c.owner s.lk.pend.length c) = { s with
        lk := { s.lk with bal := s.lk.bal - att, incoming := s.lk.incoming + att } }) := by
  obtain ⟨ext, cb, hne, hpp, hcall, hatt, hsp, hq⟩ := op_calls (p := p) hpc
  have hm : Lockup.minBalanceForStorage = 35 * 10 ^ 23 := by
    unfold Lockup.minBalanceForStorage; norm_num
  have hle : att ≤ s.lk.bal := by
    by_cases h0 : 0 < att
    · have := hbal h0; omega
    · omega
  have hx : Lockup.exec (Lockup.mkEnv cfg.lk s.lk s.lk.c.owner 0 none) s.lk.c (.owner c) =
      .ok ({ s.lk.c with staking := some ⟨p, true, known⟩ }, some ⟨ext, some cb⟩) :=
    (Lockup.C74_pool_calls_exact hne _ _ _ _).mpr ⟨rfl, rfl, hamt,
      by rw [hsp]; exact fun h => hbal h, hterm, p, known, hs, rfl, hpp.symm⟩
  have h1 := Lockup.step_call_ok (cfg := cfg.lk) ho hx (by show ext.attached ≤ _; omega)
  obtain ⟨⟨⟨owner, info, vesting, wl, staking, fdn⟩, bal, now, pend, incoming, held, loss, paid, fx,
    qd, ap, pa, fk⟩, pools, swl, poll⟩ := s
  simp only at hs ho hterm hbal hw hle h1 ⊢
  subst hs
  have hnt : ∀ f, Lockup.newFixed vesting vesting f = f := fun f =>
    Lockup.newFixed_same (by cases hv : vesting <;> simp [Lockup.Vesting.isTerminating])
  have hcb := fun W => callback_done (cfg := cfg.lk) (W := W)
    (s := ⟨owner, info, vesting, wl, some ⟨p, true, known⟩, fdn⟩) hpc hpp rfl hk
  simp only [Lockup.commit, Lockup.effPending, hq, hnt, List.nil_append, Nat.add_zero,
    Lockup.effAttached, hatt] at h1
  constructor
  · intro q effs hex
    simp only [opRound, run, step, h1, execute, Lockup.getElem?_last, Lockup.set_last, runExt, hcall,
      hw, callPool, hex, Bool.true_eq_false, if_false]
    rw [Lockup.step_cb_last rfl (hcb _).1 (Nat.zero_le _)]
    simp only [Lockup.commit, Lockup.effPending, hnt, Lockup.effQueried, Lockup.effAttached,
      List.nil_append, List.append_nil, Nat.add_zero, Nat.sub_zero]
  · intro err hex
    simp only [opRound, run, step, h1, execute, Lockup.getElem?_last, Lockup.set_last, runExt, hcall,
      hw, callPool, hex, Bool.true_eq_false, if_false]
    rw [Lockup.step_cb_last rfl (hcb _).2 (Nat.zero_le _)]
    simp only [Lockup.commit, Lockup.effPending, hnt, Lockup.effQueried, Lockup.effAttached,
      List.nil_append, List.append_nil, Nat.add_zero, Nat.sub_zero]

end Verif.System
