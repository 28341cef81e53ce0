import Verif.System.Sim

/-!
# Gas

Every receipt carries a fixed amount of gas that its sender attaches; it has to pay for the work of the
receiver and for the gas attached to the promises the receiver creates. Here the histories of
`Verif.System.Model` are metered: each call, receipt and callback of the lockup burns some gas, and fails
if that, together with the gas passed on, exceeds what was attached. The gas burnt by a piece of code is
not computed (it depends on the compiled code and on the fees of the protocol); it is part of the event.

A transaction that runs out of gas has no effect. A receipt that runs out of gas at a pool fails. A
callback that runs out of gas is gone: nothing of what it would have written happens.
-/

namespace Verif.System

open Verif

/-- lockup/src/gas.rs:1 `BASE_GAS`. -/
def baseGas : Nat := 25000000000000

/-- Gas attached to a receipt of the lockup, in multiples of `BASE_GAS` (lockup/src/gas.rs:3-57; used in
lockup/src/owner.rs:33, 112, 158, 202, 244, 285, 329, 372, 412, 451, lockup/src/foundation.rs:90, 116,
lockup/src/foundation_callbacks.rs:36, 122, lockup/src/owner_callbacks.rs:325). `none`: the receipt runs
no code. -/
def extBase : Lockup.Ext → Option Nat
  | .isWhitelisted .. => some 1
  | .getResult _ => some 1
  | .poolDeposit .. => some 2
  | .poolDepositAndStake .. => some 3
  | .poolWithdraw .. => some 3
  | .poolStake .. => some 3
  | .poolUnstake .. => some 3
  | .poolUnstakeAll _ => some 3
  | .poolStakedBalance _ => some 1
  | .poolUnstakedBalance _ => some 1
  | .poolTotalBalance _ => some 1
  | .transfer .. => none
  | .addFullAccessKey _ => none

/-- Gas attached to a callback of the lockup to itself, in multiples of `BASE_GAS`
(lockup/src/gas.rs:59-142; used in lockup/src/owner.rs:39, 118, 164, 207, 250, 291, 335, 378, 417, 456,
lockup/src/foundation.rs:96, 122, 171, lockup/src/foundation_callbacks.rs:43, 129,
lockup/src/owner_callbacks.rs:331). -/
def cbBase : Lockup.Callback → Nat
  | .onUnstakedToWithdrawByOwner => 1 + 3 + 1
  | .onStakedToUnstake => 1 + 3 + 1
  | .onUnstakedToWithdraw => 1 + 3 + 1
  | _ => 1

/-- Gas that a method of the lockup passes on with its promise, in multiples of `BASE_GAS`. -/
def effBase : Option Lockup.Eff → Nat
  | none => 0
  | some ⟨ext, cb⟩ => (extBase ext).getD 0 + (cb.map cbBase).getD 0

/-- Gas that a method of the staking pool passes on with a promise: `VOTE_GAS`
(staking-pool/src/lib.rs:16, 459) and `ON_STAKE_ACTION_GAS` (staking-pool/src/lib.rs:19,
staking-pool/src/internal.rs:20). -/
def poolEffGas : StakingPool.Eff → Nat
  | .transfer .. => 0
  | .stake _ _ withCallback => if withCallback then 20000000000000 else 0
  | .voteCall .. => 100000000000000

/-- The promises of a method of the staking pool. -/
def poolEffsGas (effs : List StakingPool.Eff) : Nat := (effs.map poolEffGas).sum

/-- Gas that the receiver of a receipt of the lockup passes on. -/
def receiverGas (cfg : Cfg) (s : Sys) (ext : Lockup.Ext) : Nat :=
  match callOf ext with
  | some (p, att, c) =>
    match s.pools.get p with
    | some w =>
      match StakingPool.exec (StakingPool.mkEnv (cfg.pool p) w cfg.lockup att []) w.pool c with
      | .ok (_, effs) => poolEffsGas effs
      | .error _ => 0
    | none => 0
  | none => 0

/-- The receipt has enough gas. -/
def paysFor (cfg : Cfg) (s : Sys) (ext : Lockup.Ext) (burnt : Nat) : Bool :=
  match extBase ext with
  | some k => decide (burnt + receiverGas cfg s ext ≤ baseGas * k)
  | none => true

/-- Metered events. -/
inductive GEv where
  /-- account `who` calls the lockup with `prepaid` gas; the method burns `burnt` -/
  | call (who : AccountId) (attached : Nat) (c : Lockup.Call) (prepaid burnt : Nat)
  | execute (i : Nat) (r : Lockup.PResult) (burnt : Nat)
  | callback (i : Nat) (burnt : Nat)
  /-- anything else -/
  | other (ev : Ev)

/-- The events of the lockup itself, which are metered. -/
def Ev.metered : Ev → Bool
  | .call .. => true
  | .execute .. => true
  | .callback _ => true
  | _ => false

/-- Gas a call of the lockup passes on. -/
def callGas (cfg : Cfg) (s : Sys) (who : AccountId) (att : Nat) (r : Option Lockup.PResult)
    (c : Lockup.Call) : Nat :=
  match Lockup.exec (Lockup.mkEnv cfg.lk s.lk who att r) s.lk.c c with
  | .ok (_, eff) => baseGas * effBase eff
  | .error _ => 0

/-- One metered event. -/
def gstep (cfg : Cfg) (s : Sys) : GEv → Sys
  | .call who att c prepaid burnt =>
    if burnt + callGas cfg s who att none c ≤ prepaid then step cfg s (.call who att c) else s
  | .execute i r burnt =>
    match s.lk.pend[i]? with
    | some p => step cfg s (.execute i (paysFor cfg s p.ext burnt) r)
    | none => s
  | .callback i burnt =>
    match s.lk.pend[i]? with
    | some ⟨_, some cb, .done r⟩ =>
      if burnt + callGas cfg s cfg.lockup 0 (some r) (.callback cb) ≤ baseGas * cbBase cb then
        step cfg s (.callback i)
      else { s with lk := { s.lk with pend := s.lk.pend.eraseIdx i } }
    | _ => s
  | .other ev => if ev.metered then s else step cfg s ev

/-- A metered history. -/
def grun (cfg : Cfg) (s : Sys) : List GEv → Sys
  | [] => s
  | ev :: t => grun cfg (gstep cfg s ev) t

/-- The event without the meter, with no failure at the host. -/
def GEv.plain : GEv → Ev
  | .call who att c _ _ => .call who att c
  | .execute i r _ => .execute i true r
  | .callback i _ => .callback i
  | .other ev => ev

/-- The receipts and callbacks burn no more than the amount that lockup/src/gas.rs reserves for the work
of each of them. -/
def GEv.Modest : GEv → Prop
  | .call .. => True
  | .execute _ _ burnt => burnt ≤ 25 * 10 ^ 12
  | .callback _ burnt => burnt ≤ 25 * 10 ^ 12
  | .other _ => True

/-- What the documentation of each method asks for ("Requires … TGas"; lockup/src/owner.rs:8, 45, 78, 124,
170, 213, 256, 298, 341, 384, 423, 462, 491, lockup/src/foundation.rs:9, 51, 131). The callbacks are not
documented (nobody else can call them). -/
def docTgas : Lockup.Call → Nat
  | .owner (.selectStakingPool _) => 75
  | .owner .unselectStakingPool => 25
  | .owner (.depositToStakingPool _) => 100
  | .owner (.depositAndStake _) => 125
  | .owner .refreshStakingPoolBalance => 75
  | .owner (.withdrawFromStakingPool _) => 125
  | .owner .withdrawAllFromStakingPool => 175
  | .owner (.stake _) => 125
  | .owner (.unstake _) => 125
  | .owner .unstakeAll => 125
  | .owner .checkTransfersVote => 75
  | .owner (.transfer ..) => 50
  | .owner (.addFullAccessKey _) => 50
  | .foundation (.terminateVesting _) => 25
  | .foundation .terminationPrepareToWithdraw => 175
  | .foundation (.terminationWithdraw _) => 75
  | .callback _ => 25

/-- A call of the lockup with the gas that the documentation asks for. -/
def GEv.Funded : GEv → Prop
  | .call _ _ c prepaid burnt => burnt ≤ 25 * 10 ^ 12 ∧ docTgas c * 10 ^ 12 ≤ prepaid
  | .other ev => ev.metered = false
  | _ => True

/-- The assumption about the foundation and the factories (`Careful`), for a metered history. -/
def GCareful (cfg : Cfg) (s : Sys) : List GEv → Prop
  | [] => True
  | ev :: t =>
    (∀ who att p r, ev = .other (.whitelist ⟨who, att, .addPool p⟩) →
      Whitelist.exec (Whitelist.mkEnv cfg.validAccountId who att) s.wl (.addPool p) = .ok r →
      s.pools.contains p = true) ∧
    GCareful cfg (gstep cfg s ev) t

/-! ## Lemmas -/

/-- What the methods of the lockup pass on, in Tgas: what is documented minus 25; but `transfer` and
`add_full_access_key` pass on nothing, `termination_withdraw` only the gas of its callback. -/
def passedOn : Lockup.Call → Nat
  | .owner (.transfer ..) => 0
  | .owner (.addFullAccessKey _) => 0
  | .foundation (.terminationWithdraw _) => 25
  | c => docTgas c - 25

theorem owner_gas {e : Lockup.Env} {s s' : Lockup.Lockup} {c : Lockup.OwnerCall}
    {eff : Option Lockup.Eff} (h : Lockup.execOwner e s c = .ok (s', eff)) :
    25 * effBase eff = passedOn (.owner c) := by
  cases c with
  | transfer a r =>
    obtain ⟨_, _, _, hr⟩ := Lockup.execOwner_rel h
    cases hr with
    | op _ si ext cb h1 h2 h3 h4 h5 => exact absurd rfl (h4 _ _)
    | transfer => rfl
  | addFullAccessKey k =>
    obtain ⟨_, _, _, hr⟩ := Lockup.execOwner_rel h
    cases hr with
    | op _ si ext cb h1 h2 h3 h4 h5 => exact absurd rfl (h5 _)
    | addKey => rfl
  | selectStakingPool p =>
    simp only [Lockup.execOwner, Lockup.selectStakingPool, bind_ok, pure_ok, Prod.mk.injEq] at h
    obtain ⟨_, _, _, _, _, _, _, _, _, _, _, rfl⟩ := h
    rfl
  | unselectStakingPool =>
    simp only [Lockup.execOwner, Lockup.unselectStakingPool, bind_ok, pure_ok, Prod.mk.injEq] at h
    obtain ⟨_, _, _, _, _, _, _, _, _, _, _, rfl⟩ := h
    rfl
  | depositToStakingPool a =>
    simp only [Lockup.execOwner, Lockup.depositToStakingPool, bind_ok, pure_ok, Prod.mk.injEq] at h
    obtain ⟨_, _, _, _, _, _, _, _, _, _, _, _, _, _, _, _, _, rfl⟩ := h
    rfl
  | depositAndStake a =>
    simp only [Lockup.execOwner, Lockup.depositAndStake, bind_ok, pure_ok, Prod.mk.injEq] at h
    obtain ⟨_, _, _, _, _, _, _, _, _, _, _, _, _, _, _, _, _, rfl⟩ := h
    rfl
  | checkTransfersVote =>
    simp only [Lockup.execOwner, Lockup.checkTransfersVote, bind_ok] at h
    obtain ⟨_, _, _, _, h⟩ := h
    split at h
    · cases h
    · simp only [bind_ok, pure_ok, Prod.mk.injEq] at h
      obtain ⟨_, _, _, rfl⟩ := h
      rfl
  | refreshStakingPoolBalance =>
    simp only [Lockup.execOwner, Lockup.refreshStakingPoolBalance, bind_ok, Lockup.poolOp_ok] at h
    obtain ⟨_, _, _, _, _, _, _, _, _, rfl⟩ := h
    rfl
  | withdrawFromStakingPool a =>
    simp only [Lockup.execOwner, Lockup.withdrawFromStakingPool, bind_ok, Lockup.poolOp_ok] at h
    obtain ⟨_, _, _, _, _, _, _, _, _, _, _, _, _, rfl⟩ := h
    rfl
  | withdrawAllFromStakingPool =>
    simp only [Lockup.execOwner, Lockup.withdrawAllFromStakingPool, bind_ok, Lockup.poolOp_ok] at h
    obtain ⟨_, _, _, _, _, _, _, _, _, rfl⟩ := h
    rfl
  | stake a =>
    simp only [Lockup.execOwner, Lockup.stake, bind_ok, Lockup.poolOp_ok] at h
    obtain ⟨_, _, _, _, _, _, _, _, _, _, _, _, _, rfl⟩ := h
    rfl
  | unstake a =>
    simp only [Lockup.execOwner, Lockup.unstake, bind_ok, Lockup.poolOp_ok] at h
    obtain ⟨_, _, _, _, _, _, _, _, _, _, _, _, _, rfl⟩ := h
    rfl
  | unstakeAll =>
    simp only [Lockup.execOwner, Lockup.unstakeAll, bind_ok, Lockup.poolOp_ok] at h
    obtain ⟨_, _, _, _, _, _, _, _, _, rfl⟩ := h
    rfl

/-- What a method of the lockup called from outside passes on, in Tgas. -/
theorem call_gas {e : Lockup.Env} {s s' : Lockup.Lockup} {c : Lockup.Call} {eff : Option Lockup.Eff}
    (he : e.result = none) (h : Lockup.exec e s c = .ok (s', eff)) : 25 * effBase eff = passedOn c := by
  cases c with
  | owner c => exact owner_gas h
  | foundation c =>
    obtain ⟨_, _, hr⟩ := Lockup.execFoundation_rel h
    cases hr <;> rfl
  | callback cb =>
    simp only [Lockup.exec, bind_ok, Lockup.notPayable_ok] at h
    obtain ⟨_, _, h⟩ := h
    obtain ⟨_, r, hr, _⟩ := Lockup.execCallback_rel h
    rw [he] at hr; cases hr

theorem passedOn_le (c : Lockup.Call) : 25 + passedOn c ≤ docTgas c := by
  cases c with
  | owner c => cases c <;> exact Nat.le_of_ble_eq_true rfl
  | foundation c => cases c <;> exact Nat.le_of_ble_eq_true rfl
  | callback c => exact Nat.le_of_ble_eq_true rfl

/-- A callback passes on no more than the gas attached to it minus the base amount. -/
theorem callback_gas {e : Lockup.Env} {s s' : Lockup.Lockup} {cb : Lockup.Callback}
    {eff : Option Lockup.Eff} (h : Lockup.exec e s (.callback cb) = .ok (s', eff)) :
    1 + effBase eff ≤ cbBase cb := by
  simp only [Lockup.exec, bind_ok, Lockup.notPayable_ok] at h
  obtain ⟨_, _, h⟩ := h
  obtain ⟨_, r, _, hr⟩ := Lockup.execCallback_rel h
  have hb : ∀ cb, 1 ≤ cbBase cb := by intro cb; cases cb <;> simp [cbBase]
  cases hr <;> first | exact hb _ | simp [effBase, extBase, cbBase]

theorem restake_gas {e : StakingPool.Env} {s : StakingPool.Pool} {effs : List StakingPool.Eff}
    (h : StakingPool.internalRestake e s = .ok effs) : poolEffsGas effs ≤ 20000000000000 := by
  rw [StakingPool.internalRestake_ok] at h
  rcases h with ⟨_, rfl⟩ | ⟨_, _, rfl⟩
  · exact Nat.zero_le _
  · simp [poolEffsGas, poolEffGas]

theorem restakeIf_gas {e : StakingPool.Env} {s : StakingPool.Pool} {b : Bool}
    {effs : List StakingPool.Eff} (h : StakingPool.restakeIf e s b = .ok effs) :
    poolEffsGas effs ≤ 20000000000000 := by
  rw [StakingPool.restakeIf_ok] at h
  rcases h with ⟨_, rfl⟩ | ⟨_, h⟩
  · exact Nat.zero_le _
  · exact restake_gas h

theorem poolEffsGas_append (l1 l2 : List StakingPool.Eff) :
    poolEffsGas (l1 ++ l2) = poolEffsGas l1 + poolEffsGas l2 := by
  simp [poolEffsGas]

theorem withdraw_gas {e : StakingPool.Env} {s s' : StakingPool.Pool} {x : Nat}
    {effs : List StakingPool.Eff} (h : StakingPool.internalWithdraw e s x = .ok (s', effs)) :
    poolEffsGas effs = 0 := by
  simp only [StakingPool.internalWithdraw, bind_ok, pure_ok, Prod.mk.injEq] at h
  obtain ⟨_, _, _, _, _, _, _, _, _, _, _, _, _, rfl⟩ := h
  rfl

/-- The methods of the pool that the lockup calls pass on at most 20 Tgas. -/
theorem pool_gas {e : StakingPool.Env} {s s' : StakingPool.Pool} {effs : List StakingPool.Eff}
    {ext : Lockup.Ext} {p : AccountId} {att : Nat} {c : StakingPool.Call}
    (hc : callOf ext = some (p, att, c)) (h : StakingPool.exec e s c = .ok (s', effs)) :
    poolEffsGas effs ≤ 20000000000000 := by
  cases ext <;> simp only [callOf, reduceCtorEq, Option.some.injEq, Prod.mk.injEq] at hc <;>
    obtain ⟨rfl, rfl, rfl⟩ := hc
  · simp only [StakingPool.exec, StakingPool.deposit, bind_ok, pure_ok, Prod.exists,
      Prod.mk.injEq] at h
    obtain ⟨s1, b, h1, s2, x, h2, effs1, h3, rfl, rfl⟩ := h
    exact restakeIf_gas h3
  · simp only [StakingPool.exec, StakingPool.depositAndStake, bind_ok, pure_ok, Prod.exists,
      Prod.mk.injEq] at h
    obtain ⟨s1, b, h1, s2, x, h2, s3, h3, effs1, h4, rfl, rfl⟩ := h
    exact restake_gas h4
  · simp only [StakingPool.exec, StakingPool.withdraw, bind_ok, StakingPool.notPayable_ok, pure_ok,
      Prod.exists, Prod.mk.injEq] at h
    obtain ⟨_, h0, s1, b, h1, s2, effs1, h2, effs2, h3, rfl, rfl⟩ := h
    rw [poolEffsGas_append, withdraw_gas h2, Nat.zero_add]
    exact restakeIf_gas h3
  · simp only [StakingPool.exec, StakingPool.stake, bind_ok, StakingPool.notPayable_ok, pure_ok,
      Prod.exists, Prod.mk.injEq] at h
    obtain ⟨_, h0, s1, b, h1, s2, h2, effs1, h3, rfl, rfl⟩ := h
    exact restake_gas h3
  · simp only [StakingPool.exec, StakingPool.unstake, bind_ok, StakingPool.notPayable_ok, pure_ok,
      Prod.exists, Prod.mk.injEq] at h
    obtain ⟨_, h0, s1, b, h1, s2, h2, effs1, h3, rfl, rfl⟩ := h
    exact restake_gas h3
  · simp only [StakingPool.exec, StakingPool.unstakeAll, bind_ok, StakingPool.notPayable_ok, pure_ok,
      Prod.exists, Prod.mk.injEq] at h
    obtain ⟨_, h0, s1, b, h1, x, hx, s2, h2, effs1, h3, rfl, rfl⟩ := h
    exact restake_gas h3

theorem receiver_gas (cfg : Cfg) (s : Sys) {ext : Lockup.Ext} {k : Nat} (hk : extBase ext = some k) :
    baseGas + receiverGas cfg s ext ≤ baseGas * k := by
  have hb : 1 ≤ k := by
    cases ext <;> simp only [extBase, reduceCtorEq, Option.some.injEq] at hk <;> omega
  have hb' : baseGas ≤ baseGas * k := Nat.le_mul_of_pos_right _ hb
  unfold receiverGas
  split
  · rename_i p att c hc
    have h2 : 2 ≤ k := by
      cases ext <;> simp only [callOf, reduceCtorEq] at hc <;>
        simp only [extBase, Option.some.injEq] at hk <;> omega
    have h3 : baseGas * 2 ≤ baseGas * k := Nat.mul_le_mul_left _ h2
    have h4 : 20000000000000 ≤ baseGas := by unfold baseGas; omega
    split
    · split
      · rename_i hx
        have h5 := pool_gas hc hx
        omega
      · exact hb'
    · exact hb'
  · exact hb'

theorem paysFor_base (cfg : Cfg) (s : Sys) (ext : Lockup.Ext) {burnt : Nat} (h : burnt ≤ baseGas) :
    paysFor cfg s ext burnt = true := by
  unfold paysFor
  split
  · rename_i k hk
    have := receiver_gas cfg s hk
    exact decide_eq_true (by omega)
  · rfl

theorem callGas_callback (cfg : Cfg) (s : Sys) (r : Lockup.PResult) (cb : Lockup.Callback) :
    baseGas + callGas cfg s cfg.lockup 0 (some r) (.callback cb) ≤ baseGas * cbBase cb := by
  have hb : 1 ≤ cbBase cb := by cases cb <;> simp [cbBase]
  unfold callGas
  split
  · rename_i eff hx
    have h1 := Nat.mul_le_mul_left baseGas (callback_gas hx)
    rw [Nat.mul_add, Nat.mul_one] at h1
    exact h1
  · exact Nat.le_mul_of_pos_right _ hb

theorem callGas_eq {cfg : Cfg} {s : Sys} {who : AccountId} {att : Nat} {c : Lockup.Call}
    {x : Lockup.Lockup × Option Lockup.Eff}
    (h : Lockup.exec (Lockup.mkEnv cfg.lk s.lk who att none) s.lk.c c = .ok x) :
    callGas cfg s who att none c = passedOn c * 10 ^ 12 := by
  unfold callGas
  rw [h]
  have h1 := call_gas (e := Lockup.mkEnv cfg.lk s.lk who att none) rfl h
  have h2 : baseGas = 25 * 10 ^ 12 := rfl
  show baseGas * effBase x.2 = _
  rw [← h1, h2, Nat.mul_right_comm]

theorem callGas_call (cfg : Cfg) (s : Sys) (who : AccountId) (att : Nat) (c : Lockup.Call) :
    callGas cfg s who att none c ≤ passedOn c * 10 ^ 12 := by
  cases h : Lockup.exec (Lockup.mkEnv cfg.lk s.lk who att none) s.lk.c c with
  | ok x => exact Nat.le_of_eq (callGas_eq h)
  | error m =>
    unfold callGas
    rw [h]
    exact Nat.zero_le _

/-- A metered event has the effect of the plain event, or (for calls without enough gas) no effect. -/
theorem gstep_modest (cfg : Cfg) (s : Sys) {ev : GEv} (h : ev.Modest) :
    gstep cfg s ev = step cfg s ev.plain ∨ gstep cfg s ev = s := by
  cases ev with
  | call who att c prepaid burnt =>
    simp only [gstep]
    split
    · exact .inl rfl
    · exact .inr rfl
  | execute i r burnt =>
    simp only [gstep]
    split
    · rw [paysFor_base cfg s _ h]; exact .inl rfl
    · exact .inr rfl
  | callback i burnt =>
    simp only [gstep]
    split
    · rename_i cb r _
      have h1 := callGas_callback cfg s r cb
      have h2 : burnt ≤ baseGas := h
      rw [if_pos (by omega)]
      exact .inl rfl
    · exact .inr rfl
  | other ev =>
    simp only [gstep]
    split
    · exact .inr rfl
    · exact .inl rfl

theorem gstep_funded (cfg : Cfg) (s : Sys) {ev : GEv} (h : ev.Modest) (hf : ev.Funded) :
    gstep cfg s ev = step cfg s ev.plain := by
  cases ev with
  | call who att c prepaid burnt =>
    have h1 := callGas_call cfg s who att c
    have h2 : burnt ≤ 25 * 10 ^ 12 ∧ docTgas c * 10 ^ 12 ≤ prepaid := hf
    have h3 := passedOn_le c
    simp only [gstep]
    rw [if_pos (by omega)]
    rfl
  | execute i r burnt =>
    simp only [gstep]
    split
    · rw [paysFor_base cfg s _ h]; rfl
    · rename_i hn
      simp only [GEv.plain, step, execute, hn]
  | callback i burnt =>
    simp only [gstep]
    split
    · rename_i cb r _
      have h1 := callGas_callback cfg s r cb
      have h2 : burnt ≤ baseGas := h
      rw [if_pos (by omega)]
      rfl
    · rename_i hn
      simp only [GEv.plain, step, Lockup.step, Lockup.callback]
  | other ev =>
    simp only [gstep]
    have : ev.metered = false := hf
    rw [this]; rfl

end Verif.System
