import Verif.System.Calm
import Verif.StakingPool.Leave

/-! # The stages of bringing tokens back from a real pool -/

namespace Verif.Lockup

open Verif

/-- The owner's `unstake_all`, whatever the pool answers, leaves the lockup as it was. -/
theorem run_ownerUnstake_any {cfg : Cfg} {w : World} {pool : AccountId} {known : Nat} {r : PResult}
    (hr : r = .unit ∨ r = .failed)
    (ho : w.c.owner ≠ cfg.self) (hs : w.c.staking = some ⟨pool, false, known⟩)
    (hterm : ∀ u st, w.c.vesting ≠ .terminating u st) :
    run cfg w [.call w.c.owner 0 (.owner .unstakeAll), .execute w.pend.length r,
      .callback w.pend.length] = w := by
  rcases hr with rfl | rfl
  · exact run_ownerUnstake ho hs hterm
  have h1 := step_ownerOp (c := .unstakeAll) ho hs hterm rfl (by intro p h; cases h) rfl rfl rfl rfl
  simp only [run]
  rw [h1]
  obtain ⟨⟨owner, info, vesting, wl, staking, fdn⟩, bal, now, pend, incoming, held, loss, paid, fx,
    qd, ap, pa, fk⟩ := w
  simp only at hs ho hterm ⊢
  subst hs
  rw [step_exec_last rfl]
  simp only [runExt]
  have hx : exec (mkEnv cfg ⟨⟨owner, info, vesting, wl, some ⟨pool, true, known⟩, fdn⟩, bal, now,
      pend, incoming, held, loss, paid, fx, qd, ap, pa, fk⟩ cfg.self 0 (some .failed))
      ⟨owner, info, vesting, wl, some ⟨pool, true, known⟩, fdn⟩ (.callback .onUnstakeAll) =
      .ok (⟨owner, info, vesting, wl, some ⟨pool, false, known⟩, fdn⟩, none) := by
    obtain ⟨e1, e2⟩ := env_self cfg ⟨⟨owner, info, vesting, wl, some ⟨pool, true, known⟩, fdn⟩, bal,
      now, pend, incoming, held, loss, paid, fx, qd, ap, pa, fk⟩ .failed
    simp only [exec, e1, ok_bind, execCallback, onStakeLike, e2]
    rfl
  rw [step_cb_last rfl hx (Nat.zero_le _)]
  have hnt : newFixed vesting vesting fx = fx :=
    newFixed_same (by cases hv : vesting <;> simp [Vesting.isTerminating])
  simp only [commit, effPending, effAttached, effQueried, List.nil_append, Nat.add_zero,
    Nat.sub_zero, List.append_nil, hnt]

/-- After the answer to the owner's query of the unstaked balance the withdrawal is sent. -/
theorem ownerAsk_pend {cfg : Cfg} {w : World} {pool : AccountId} {known N : Nat}
    (ho : w.c.owner ≠ cfg.self) (hs : w.c.staking = some ⟨pool, false, known⟩)
    (hterm : ∀ u st, w.c.vesting ≠ .terminating u st) (hN : N < two128) (h0 : N ≠ 0) :
    (run cfg w [.call w.c.owner 0 (.owner .withdrawAllFromStakingPool),
      .execute w.pend.length (.balance N), .callback w.pend.length]).pend =
      w.pend ++ [⟨.poolWithdraw pool N, some (.onWithdraw N), .sent⟩] := by
  have h1 := step_ownerOp (c := .withdrawAllFromStakingPool) ho hs hterm rfl
    (by intro p h; cases h) rfl rfl rfl rfl
  simp only [run]
  rw [h1]
  obtain ⟨⟨owner, info, vesting, wl, staking, fdn⟩, bal, now, pend, incoming, held, loss, paid, fx,
    qd, ap, pa, fk⟩ := w
  simp only at hs ho hterm ⊢
  subst hs
  rw [step_exec_last rfl]
  simp only [runExt]
  obtain ⟨e1, e2⟩ := env_self cfg ⟨⟨owner, info, vesting, wl, some ⟨pool, true, known⟩, fdn⟩, bal,
    now, pend, incoming, held, loss, paid, fx, qd, ap, pa, fk⟩ (.balance N)
  have e3 := callbackBalance_run cfg ⟨⟨owner, info, vesting, wl, some ⟨pool, true, known⟩, fdn⟩, bal,
    now, pend, incoming, held, loss, paid, fx, qd, ap, pa, fk⟩ hN
  have hx : exec (mkEnv cfg ⟨⟨owner, info, vesting, wl, some ⟨pool, true, known⟩, fdn⟩, bal, now,
      pend, incoming, held, loss, paid, fx, qd, ap, pa, fk⟩ cfg.self 0 (some (.balance N)))
      ⟨owner, info, vesting, wl, some ⟨pool, true, known⟩, fdn⟩
      (.callback .onUnstakedToWithdrawByOwner) =
      .ok (⟨owner, info, vesting, wl, some ⟨pool, true, known⟩, fdn⟩,
        some ⟨.poolWithdraw pool N, some (.onWithdraw N)⟩) := by
    simp only [exec, e1, ok_bind, execCallback, onUnstakedToWithdrawByOwner, e3, e2]
    rw [if_pos (by omega)]
    rfl
  rw [step_cb_last rfl hx (Nat.zero_le _)]
  rfl

/-- After the foundation's `termination_prepare_to_withdraw` the query is under way. -/
theorem step_prepare {cfg : Cfg} {w : World} {f : AccountId} {si : StakingInfo} {u : Nat}
    (hf : w.c.foundation = some f) (hfs : f ≠ cfg.self) (hs : w.c.staking = some si)
    (hb : si.busy = false) {st st' : TStatus} {ext : AccountId → Ext} {cb : Callback}
    (hst : (st = .terminatedWithDeficit ∧ st' = .unstakingInProgress ∧ ext = .poolStakedBalance ∧
        cb = .onStakedToUnstake) ∨
      (st = .everythingUnstaked ∧ st' = .withdrawingFromPool ∧ ext = .poolUnstakedBalance ∧
        cb = .onUnstakedToWithdraw))
    (hv : w.c.vesting = .terminating u st) :
    step cfg w (.call f 0 (.foundation .terminationPrepareToWithdraw)) =
      { w with c := { w.c with vesting := .terminating u st',
                               staking := some ⟨si.pool, true, si.deposit⟩ },
               pend := w.pend ++ [⟨ext si.pool, some cb, .sent⟩] } := by
  have hx := exec_prepare (e := mkEnv cfg w f 0 none) (s := w.c) rfl hf hs hb hst hv
  rw [step_call_ok hfs hx (by rcases hst with ⟨_, _, rfl, _⟩ | ⟨_, _, rfl, _⟩ <;> exact Nat.zero_le _)]
  obtain ⟨⟨owner, info, vesting, wl, staking, fdn⟩, bal, now, pend, incoming, held, loss, paid, fx,
    qd, ap, pa, fk⟩ := w
  simp only at hf hs hv
  subst hf hs hv
  rcases hst with ⟨rfl, rfl, rfl, rfl⟩ | ⟨rfl, rfl, rfl, rfl⟩ <;>
    simp only [commit, effPending, effAttached, Ext.attached, newFixed, Vesting.isTerminating,
      effQueried, List.nil_append, Nat.add_zero, Nat.sub_zero]

/-- The payment to the foundation is under way. -/
theorem pay_pend {cfg : Cfg} {w : World} {f r : AccountId} {u : Nat}
    (hf : w.c.foundation = some f) (hfs : f ≠ cfg.self) (hr : cfg.validAccountId r = true)
    (hv : w.c.vesting = .terminating u .readyToWithdraw) (hu : 0 < u)
    (hbal : u + minBalanceForStorage ≤ w.bal) :
    (step cfg w (.call f 0 (.foundation (.terminationWithdraw r)))).pend =
      w.pend ++ [⟨.transfer r u, some (.onWithdrawUnvested u r), .sent⟩] := by
  obtain ⟨⟨owner, info, vesting, wl, staking, fdn⟩, bal, now, pend, incoming, held, loss, paid, fx,
    qd, ap, pa, fk⟩ := w
  simp only at hf hv hbal
  subst hf hv
  have hmin : min u (getAccountBalance (mkEnv cfg ⟨⟨owner, info, .terminating u .readyToWithdraw, wl,
      staking, some f⟩, bal, now, pend, incoming, held, loss, paid, fx, qd, ap, pa, fk⟩ f 0 none)) =
      u := by
    show min u (bal + 0 - minBalanceForStorage) = u
    omega
  have hx : exec (mkEnv cfg ⟨⟨owner, info, .terminating u .readyToWithdraw, wl,
      staking, some f⟩, bal, now, pend, incoming, held, loss, paid, fx, qd, ap, pa, fk⟩ f 0 none)
      ⟨owner, info, .terminating u .readyToWithdraw, wl, staking, some f⟩
      (.foundation (.terminationWithdraw r)) =
      .ok (⟨owner, info, .terminating u .withdrawingFromAccount, wl, staking, some f⟩,
        some ⟨.transfer r u, some (.onWithdrawUnvested u r)⟩) := by
    simp only [exec, execFoundation, terminationWithdraw, bind_ok, notPayable_ok, require_ok,
      terminatedUnvested, hmin, pure_ok, Prod.mk.injEq]
    refine ⟨(), rfl, (), ?_, (), hr, (), rfl, (), hu, _, rfl, rfl, trivial⟩
    simp [assertFoundation, require_ok, mkEnv]
  rw [step_call_ok hfs hx (by show u ≤ bal; omega)]
  rfl

/-- The answer to the query is handled: the second receipt is under way. -/
theorem prepare_pend {cfg : Cfg} {w : World} {f : AccountId} {si : StakingInfo} {u N : Nat}
    (hf : w.c.foundation = some f) (hfs : f ≠ cfg.self) (hs : w.c.staking = some si)
    (hb : si.busy = false) (hN : N < two128) (h0 : N ≠ 0) {st : TStatus} {ext : Ext} {cb : Callback}
    (hst : (st = .terminatedWithDeficit ∧ ext = .poolUnstake si.pool N ∧
        cb = .onUnstakeForTermination N) ∨
      (st = .everythingUnstaked ∧ ext = .poolWithdraw si.pool N ∧ cb = .onWithdrawForTermination N))
    (hv : w.c.vesting = .terminating u st) :
    (run cfg w [.call f 0 (.foundation .terminationPrepareToWithdraw),
      .execute w.pend.length (.balance N), .callback w.pend.length]).pend =
      w.pend ++ [⟨ext, some cb, .sent⟩] := by
  simp only [run]
  rcases hst with ⟨rfl, rfl, rfl⟩ | ⟨rfl, rfl, rfl⟩
  · rw [step_prepare hf hfs hs hb (.inl ⟨rfl, rfl, rfl, rfl⟩) hv]
    obtain ⟨⟨owner, info, vesting, wl, staking, fdn⟩, bal, now, pend, incoming, held, loss, paid, fx,
      qd, ap, pa, fk⟩ := w
    obtain ⟨pool, busy, dep⟩ := si
    simp only at hf hs hb hv ⊢
    subst hf hs hb hv
    rw [step_exec_last rfl]
    simp only [runExt]
    obtain ⟨e1, e2⟩ := env_self cfg ⟨⟨owner, info, .terminating u .unstakingInProgress, wl,
        some ⟨pool, true, dep⟩, some f⟩, bal, now, pend, incoming, held, loss, paid, fx, qd, ap, pa,
        fk⟩ (.balance N)
    have e3 := callbackBalance_run cfg ⟨⟨owner, info, .terminating u .unstakingInProgress, wl,
        some ⟨pool, true, dep⟩, some f⟩, bal, now, pend, incoming, held, loss, paid, fx, qd, ap, pa,
        fk⟩ hN
    have hxx : exec (mkEnv cfg ⟨⟨owner, info, .terminating u .unstakingInProgress, wl,
        some ⟨pool, true, dep⟩, some f⟩, bal, now, pend, incoming, held, loss, paid, fx, qd, ap, pa,
        fk⟩ cfg.self 0 (some (.balance N))) ⟨owner, info, .terminating u .unstakingInProgress, wl,
        some ⟨pool, true, dep⟩, some f⟩ (.callback .onStakedToUnstake) =
        .ok (⟨owner, info, .terminating u .unstakingInProgress, wl, some ⟨pool, true, dep⟩, some f⟩,
          some ⟨.poolUnstake pool N, some (.onUnstakeForTermination N)⟩) := by
      simp only [exec, e1, ok_bind, execCallback, onStakedToUnstake, e3, e2]
      rw [if_pos (by omega)]
      rfl
    rw [step_cb_last rfl hxx (Nat.zero_le _)]
    rfl
  · rw [step_prepare hf hfs hs hb (.inr ⟨rfl, rfl, rfl, rfl⟩) hv]
    obtain ⟨⟨owner, info, vesting, wl, staking, fdn⟩, bal, now, pend, incoming, held, loss, paid, fx,
      qd, ap, pa, fk⟩ := w
    obtain ⟨pool, busy, dep⟩ := si
    simp only at hf hs hb hv ⊢
    subst hf hs hb hv
    rw [step_exec_last rfl]
    simp only [runExt]
    obtain ⟨e1, e2⟩ := env_self cfg ⟨⟨owner, info, .terminating u .withdrawingFromPool, wl,
        some ⟨pool, true, dep⟩, some f⟩, bal, now, pend, incoming, held, loss, paid, fx, qd, ap, pa,
        fk⟩ (.balance N)
    have e3 := callbackBalance_run cfg ⟨⟨owner, info, .terminating u .withdrawingFromPool, wl,
        some ⟨pool, true, dep⟩, some f⟩, bal, now, pend, incoming, held, loss, paid, fx, qd, ap, pa,
        fk⟩ hN
    have hxx : exec (mkEnv cfg ⟨⟨owner, info, .terminating u .withdrawingFromPool, wl,
        some ⟨pool, true, dep⟩, some f⟩, bal, now, pend, incoming, held, loss, paid, fx, qd, ap, pa,
        fk⟩ cfg.self 0 (some (.balance N))) ⟨owner, info, .terminating u .withdrawingFromPool, wl,
        some ⟨pool, true, dep⟩, some f⟩ (.callback .onUnstakedToWithdraw) =
        .ok (⟨owner, info, .terminating u .withdrawingFromPool, wl, some ⟨pool, true, dep⟩, some f⟩,
          some ⟨.poolWithdraw pool N, some (.onWithdrawForTermination N)⟩) := by
      simp only [exec, e1, ok_bind, execCallback, onUnstakedToWithdraw, e3, e2]
      rw [if_pos (by omega)]
      rfl
    rw [step_cb_last rfl hxx (Nat.zero_le _)]
    rfl

end Verif.Lockup

namespace Verif.System

open Verif

/-- The owner calls `unstake_all`; the receipt to the pool and the callback run. -/
def sysUnstake (o : AccountId) (k : Nat) : List Ev :=
  [.call o 0 (.owner .unstakeAll), .execute k true .unit, .callback k]

/-- The owner calls `withdraw_all_from_staking_pool`; the receipts to the pool and the callbacks run and
`N` tokens arrive. -/
def sysFetch (o : AccountId) (k N : Nat) : List Ev :=
  [.call o 0 (.owner .withdrawAllFromStakingPool), .execute k true .unit, .callback k] ++
    (if N = 0 then [] else [.execute k true .unit, .callback k, .arrive N])

/-- The owner refreshes the balance and unselects the pool. -/
def sysLeave (o : AccountId) (k : Nat) : List Ev :=
  [.call o 0 (.owner .refreshStakingPoolBalance), .execute k true .unit, .callback k,
   .call o 0 (.owner .unselectStakingPool)]

/-- What stays: the whitelist, the poll and all other pools. -/
structure Frame (p : AccountId) (s s' : Sys) : Prop where
  wl : s'.wl = s.wl
  poll : s'.poll = s.poll
  others : ∀ q, q ≠ p → s'.pools.get q = s.pools.get q

theorem sys_unstake {cfg : Cfg} {a : Lockup.NewArgs} {s : Sys} (h : Inv cfg a s)
    {p : AccountId} {known : Nat} {w : StakingPool.World}
    (ho : s.lk.c.owner ≠ cfg.lockup) (hs : s.lk.c.staking = some ⟨p, false, known⟩)
    (hterm : ∀ u st, s.lk.c.vesting ≠ .terminating u st)
    (hw : s.pools.get p = some w) (hb : StakingPool.Bounded w) :
    ∃ w', Rel s.lk.held (run cfg s (sysUnstake s.lk.c.owner s.lk.pend.length)) s.lk ∧
      (run cfg s (sysUnstake s.lk.c.owner s.lk.pend.length)).pools.get p = some w' ∧
      Frame p s (run cfg s (sysUnstake s.lk.c.owner s.lk.pend.length)) ∧
      w'.epoch = w.epoch ∧ w'.pool.ownerId = w.pool.ownerId ∧
      (StakingPool.getAcc w'.pool cfg.lockup).stakeShares = 0 ∧
      worth cfg.lockup w ≤ (StakingPool.getAcc w'.pool cfg.lockup).unstaked := by
  obtain ⟨hpl, hre⟩ := h.pools p w hw
  have hne : cfg.lockup ≠ (cfg.pool p).self := fun e => hpl e.symm
  have hop := Lockup.step_ownerOp (cfg := cfg.lk) (w := s.lk) (c := .unstakeAll) ho hs hterm rfl
    (by intro p h; cases h) rfl rfl rfl rfl
  have r0 : Rel s.lk.held s s.lk := rfl
  have r1 := rel_call (cfg := cfg) r0 s.lk.c.owner 0 (.owner .unstakeAll)
  have hpend : (Lockup.step cfg.lk s.lk (.call s.lk.c.owner 0 (.owner .unstakeAll))).pend[
      s.lk.pend.length]? = some ⟨.poolUnstakeAll p, some .onUnstakeAll, .sent⟩ := by
    rw [hop]; exact Lockup.getElem?_last
  have hw1 : (step cfg s (.call s.lk.c.owner 0 (.owner .unstakeAll))).pools.get p = some w := hw
  rcases StakingPool.unstakeAll_cases hre hb cfg.lockup with ⟨q, effs, hx, hz⟩ | ⟨⟨m, hx⟩, hz⟩
  · have hpaid := other_paid hre rfl hx
    obtain ⟨r2, hp2, hwl, hpo⟩ := rel_accept (cfg := cfg) r1 .unit hpend (c := .unstakeAll) rfl
      (.inr rfl) hw1 hx hpaid
    have r3 := rel_callback (cfg := cfg) r2 s.lk.pend.length
    have hfin := Lockup.run_ownerUnstake_any (cfg := cfg.lk) (w := s.lk) (.inl rfl) ho hs hterm
    simp only [Lockup.run] at hfin
    rw [hfin] at r3
    obtain ⟨hre', hwc⟩ := worth_call hre hne hx
    rw [hpaid, Nat.add_zero, Nat.add_zero, worth_eq hre', StakingPool.stakedOf_zero (by exact hz),
      Nat.add_zero] at hwc
    obtain ⟨s0, hi⟩ := StakingPool.reachable_inv hre
    refine ⟨StakingPool.commit w cfg.lockup 0 .unstakeAll q effs, r3, ?_, ⟨hwl, hpo, ?_⟩, rfl,
      (StakingPool.call_facts hi.pool hx).owner, hz, hwc⟩
    · show (step cfg (step cfg s _) _).pools.get p = _
      rw [hp2, UMap.get_insert, if_pos rfl]
    · intro q' hq'
      show (step cfg (step cfg s _) _).pools.get q' = _
      rw [hp2, UMap.get_insert, if_neg (Ne.symm hq')]
      rfl
  · obtain ⟨r2, hp2, hwl, hpo⟩ := rel_reject (cfg := cfg) r1 .unit hpend (c := .unstakeAll) rfl
      (.inr (.inl rfl)) hw1 hx
    have r3 := rel_callback (cfg := cfg) r2 s.lk.pend.length
    have hfin := Lockup.run_ownerUnstake_any (cfg := cfg.lk) (w := s.lk) (.inr rfl) ho hs hterm
    simp only [Lockup.run] at hfin
    rw [hfin] at r3
    refine ⟨w, r3, ?_, ⟨hwl, hpo, ?_⟩, rfl, rfl, hz, ?_⟩
    · show (step cfg (step cfg s _) _).pools.get p = _
      rw [hp2]; exact hw
    · intro q' hq'
      show (step cfg (step cfg s _) _).pools.get q' = _
      rw [hp2]; rfl
    · rw [worth_eq hre, StakingPool.stakedOf_zero hz]; omega

theorem sys_fetch {cfg : Cfg} {a : Lockup.NewArgs} {s : Sys} (h : Inv cfg a s)
    {p : AccountId} {known : Nat} {w : StakingPool.World}
    (ho : s.lk.c.owner ≠ cfg.lockup) (hs : s.lk.c.staking = some ⟨p, false, known⟩)
    (hterm : ∀ u st, s.lk.c.vesting ≠ .terminating u st)
    (hw : s.pools.get p = some w) (hb : StakingPool.Bounded w) {N : Nat}
    (hN : N = (StakingPool.getAcc w.pool cfg.lockup).unstaked)
    (hep : (StakingPool.getAcc w.pool cfg.lockup).unstakedAvailableEpoch ≤ w.epoch)
    (hliq : N ≤ w.liquid) :
    ∃ w', Rel 0 (run cfg s (sysFetch s.lk.c.owner s.lk.pend.length N))
        { s.lk with c := { s.lk.c with staking := some ⟨p, false, known - N⟩ },
                    bal := s.lk.bal + N, held := 0 } ∧
      (run cfg s (sysFetch s.lk.c.owner s.lk.pend.length N)).pools.get p = some w' ∧
      Frame p s (run cfg s (sysFetch s.lk.c.owner s.lk.pend.length N)) ∧
      w'.epoch = w.epoch ∧ w'.pool.ownerId = w.pool.ownerId ∧
      (StakingPool.getAcc w'.pool cfg.lockup).unstaked = 0 ∧
      (cfg.lockup ≠ w.pool.ownerId →
        (StakingPool.getAcc w'.pool cfg.lockup).stakeShares =
          (StakingPool.getAcc w.pool cfg.lockup).stakeShares) := by
  obtain ⟨hpl, hre⟩ := h.pools p w hw
  have hne : cfg.lockup ≠ (cfg.pool p).self := fun e => hpl e.symm
  obtain ⟨s0, hi⟩ := StakingPool.reachable_inv hre
  have hU := (StakingPool.fits_world hi hb).U cfg.lockup
  have hN128 : N < two128 := by
    have : (two128 : Nat) = 2 ^ 128 := rfl
    omega
  have hop := Lockup.step_ownerOp (cfg := cfg.lk) (w := { s.lk with held := N })
    (c := .withdrawAllFromStakingPool) ho hs hterm rfl
    (by intro p h; cases h) rfl rfl rfl rfl
  have r0 : Rel N s { s.lk with held := N } := rfl
  have r1 := rel_call (cfg := cfg) r0 s.lk.c.owner 0 (.owner .withdrawAllFromStakingPool)
  have hpend : (Lockup.step cfg.lk { s.lk with held := N }
      (.call s.lk.c.owner 0 (.owner .withdrawAllFromStakingPool))).pend[
      s.lk.pend.length]? =
        some ⟨.poolUnstakedBalance p, some .onUnstakedToWithdrawByOwner, .sent⟩ := by
    rw [hop]; exact Lockup.getElem?_last
  have hw1 : (step cfg s (.call s.lk.c.owner 0 (.owner .withdrawAllFromStakingPool))).pools.get p =
    some w := hw
  obtain ⟨r2, hp2, hwl2, hpo2⟩ := rel_view (cfg := cfg) r1 .unit hpend rfl hw1 (v := N)
    (by rw [hN]; exact StakingPool.getUnstaked_total hi.pool _ _) (Nat.le_refl _)
  have r3 := rel_callback (cfg := cfg) r2 s.lk.pend.length
  have hfin := Lockup.run_ownerFetch (cfg := cfg.lk) (w := { s.lk with held := N })
    ho hs hterm hN128 (Nat.le_refl _)
  simp only [Lockup.ownerFetch, List.cons_append, List.nil_append, Lockup.run, Nat.sub_self] at hfin
  simp only [sysFetch, List.cons_append, List.nil_append, run]
  by_cases h0 : N = 0
  · simp only [if_pos h0, run, Lockup.run] at hfin ⊢
    rw [hfin] at r3
    refine ⟨w, ?_, ?_, ⟨hwl2, hpo2, ?_⟩, rfl, rfl, by omega, fun _ => rfl⟩
    · rw [← h0]; subst h0; exact r3
    · show (step cfg (step cfg s _) _).pools.get p = _
      rw [hp2]; exact hw
    · intro q' _
      show (step cfg (step cfg s _) _).pools.get q' = _
      rw [hp2]; rfl
  · simp only [if_neg h0, run, Lockup.run] at hfin ⊢
    have hpend3 := Lockup.ownerAsk_pend (cfg := cfg.lk) (w := { s.lk with held := N })
      ho hs hterm hN128 h0
    simp only [Lockup.run] at hpend3
    have hw3 : (step cfg (step cfg (step cfg s
        (.call s.lk.c.owner 0 (.owner .withdrawAllFromStakingPool)))
        (.execute s.lk.pend.length true .unit)) (.callback s.lk.pend.length)).pools.get p =
        some w := by
      show (step cfg (step cfg s _) _).pools.get p = _
      rw [hp2]; exact hw
    have hacc := StakingPool.getAccount_total hi.pool w.epoch cfg.lockup
    obtain ⟨⟨_, hmpr⟩, hres⟩ := StakingPool.C07_withdraw_iff hre hb cfg.lockup N hacc
    obtain ⟨q, effs, hx⟩ := hmpr ⟨by omega, by simp only; omega,
      by simp only [decide_eq_true_eq]; omega, hliq⟩
    obtain ⟨_, u', hu', huN⟩ := hres q effs hx
    have hpaid := (withdraw_paid hre hx).2
    have hcf := StakingPool.call_facts hi.pool hx
    obtain ⟨r4, hp4, hwl4, hpo4⟩ := rel_withdraw (cfg := cfg) r3 .unit
      (by rw [hpend3]; exact Lockup.getElem?_last) hw3 hx hpaid (Nat.le_refl _)
    have r5 := rel_callback (cfg := cfg) r4 s.lk.pend.length
    have r6 := rel_arrive (cfg := cfg) r5 N
    rw [hfin, Nat.sub_self] at r6
    have hinv' := StakingPool.step_inv hi (.call cfg.lockup 0 (.withdraw N))
    rw [step_call hne hx] at hinv'
    have hu0 : (StakingPool.getAcc q cfg.lockup).unstaked = 0 := by
      have := StakingPool.getUnstaked_total hinv'.pool w.epoch cfg.lockup
      have e1 : StakingPool.getAccountUnstakedBalance w.epoch q cfg.lockup =
        .ok (StakingPool.getAcc q cfg.lockup).unstaked := this
      rw [hu'] at e1
      cases e1
      simp only at huN
      omega
    refine ⟨StakingPool.commit w cfg.lockup 0 (.withdraw N) q effs, r6, ?_,
      ⟨hwl4.trans hwl2, hpo4.trans hpo2, ?_⟩, rfl, hcf.owner, hu0, ?_⟩
    · show (step cfg (step cfg (step cfg (step cfg s _) _) _) _).pools.get p = _
      rw [hp4, UMap.get_insert, if_pos rfl]
    · intro q' hq'
      show (step cfg (step cfg (step cfg (step cfg s _) _) _) _).pools.get q' = _
      rw [hp4, UMap.get_insert, if_neg (Ne.symm hq')]
      show (step cfg (step cfg s _) _).pools.get q' = _
      rw [hp2]; rfl
    · intro hown
      exact StakingPool.withdraw_shares hi hown hx

theorem sys_leave {cfg : Cfg} {a : Lockup.NewArgs} {s : Sys} (h : Inv cfg a s)
    {p : AccountId} {known : Nat} {w : StakingPool.World}
    (ho : s.lk.c.owner ≠ cfg.lockup) (hs : s.lk.c.staking = some ⟨p, false, known⟩)
    (hterm : ∀ u st, s.lk.c.vesting ≠ .terminating u st)
    (hw : s.pools.get p = some w) (h0 : worth cfg.lockup w = 0) :
    Rel s.lk.held (run cfg s (sysLeave s.lk.c.owner s.lk.pend.length))
      { s.lk with c := { s.lk.c with staking := none } } ∧
    (run cfg s (sysLeave s.lk.c.owner s.lk.pend.length)).pools = s.pools ∧
    (run cfg s (sysLeave s.lk.c.owner s.lk.pend.length)).wl = s.wl ∧
    (run cfg s (sysLeave s.lk.c.owner s.lk.pend.length)).poll = s.poll := by
  obtain ⟨hpl, hre⟩ := h.pools p w hw
  obtain ⟨s0, hi⟩ := StakingPool.reachable_inv hre
  have hop := Lockup.step_ownerOp (cfg := cfg.lk) (w := s.lk)
    (c := .refreshStakingPoolBalance) ho hs hterm rfl
    (by intro p h; cases h) rfl rfl rfl rfl
  have r0 : Rel s.lk.held s s.lk := rfl
  have r1 := rel_call (cfg := cfg) r0 s.lk.c.owner 0 (.owner .refreshStakingPoolBalance)
  have hpend : (Lockup.step cfg.lk s.lk
      (.call s.lk.c.owner 0 (.owner .refreshStakingPoolBalance))).pend[
      s.lk.pend.length]? = some ⟨.poolTotalBalance p, some .onTotalBalance, .sent⟩ := by
    rw [hop]; exact Lockup.getElem?_last
  have hw1 : (step cfg s (.call s.lk.c.owner 0 (.owner .refreshStakingPoolBalance))).pools.get p =
    some w := hw
  have hview : StakingPool.getAccountTotalBalance w.epoch w.pool cfg.lockup = .ok 0 := by
    rw [worth_eq hre] at h0
    simp only [StakingPool.getAccountTotalBalance, bind_ok, addU128_ok]
    exact ⟨_, StakingPool.getAccount_total hi.pool _ _, by simp only; rw [h0]; decide, h0.symm⟩
  obtain ⟨r2, hp2, hwl2, hpo2⟩ := rel_view (cfg := cfg) r1 .unit hpend rfl hw1 (v := 0)
    hview (Nat.zero_le _)
  have r3 := rel_callback (cfg := cfg) r2 s.lk.pend.length
  have r4 := rel_call (cfg := cfg) r3 s.lk.c.owner 0 (.owner .unselectStakingPool)
  have hfin := Lockup.run_ownerLeave (cfg := cfg.lk) (w := s.lk) ho hs hterm
  simp only [Lockup.ownerLeave, Lockup.run] at hfin
  rw [hfin] at r4
  refine ⟨r4, ?_, hwl2, hpo2⟩
  show (step cfg (step cfg s _) _).pools = _
  rw [hp2]; rfl

/-! ## Termination -/

/-- The foundation calls `termination_prepare_to_withdraw`; the pool is asked for the staked balance
`S` of the lockup and unstakes it. -/
def sysTermUnstake (f : AccountId) (k S : Nat) : List Ev :=
  [.call f 0 (.foundation .terminationPrepareToWithdraw), .execute k true .unit, .callback k] ++
    (if S = 0 then [] else [.execute k true .unit, .callback k])

/-- The foundation calls `termination_prepare_to_withdraw` again; the pool is asked for the unstaked
balance `N` and pays it out. -/
def sysTermFetch (f : AccountId) (k N : Nat) : List Ev :=
  [.call f 0 (.foundation .terminationPrepareToWithdraw), .execute k true .unit, .callback k] ++
    (if N = 0 then [] else [.execute k true .unit, .callback k, .arrive N])

/-- The foundation calls `termination_withdraw`; the transfer to `r` succeeds. -/
def sysTermPay (f : AccountId) (k : Nat) (r : AccountId) : List Ev :=
  [.call f 0 (.foundation (.terminationWithdraw r)), .execute k true .unit, .callback k]

theorem sys_termUnstake {cfg : Cfg} {a : Lockup.NewArgs} {s : Sys} (h : Inv cfg a s)
    {p : AccountId} {known u : Nat} {f : AccountId} {w : StakingPool.World}
    (hf : s.lk.c.foundation = some f) (hfs : f ≠ cfg.lockup)
    (hs : s.lk.c.staking = some ⟨p, false, known⟩)
    (hv : s.lk.c.vesting = .terminating u .terminatedWithDeficit)
    (hw : s.pools.get p = some w) (hb : StakingPool.Bounded w) {S : Nat}
    (hS : S = StakingPool.stakedOf w.pool cfg.lockup) :
    ∃ w', Rel s.lk.held (run cfg s (sysTermUnstake f s.lk.pend.length S))
        { s.lk with c := { s.lk.c with vesting := .terminating u .everythingUnstaked } } ∧
      (run cfg s (sysTermUnstake f s.lk.pend.length S)).pools.get p = some w' ∧
      w'.epoch = w.epoch ∧
      worth cfg.lockup w ≤ (StakingPool.getAcc w'.pool cfg.lockup).unstaked := by
  obtain ⟨hpl, hre⟩ := h.pools p w hw
  obtain ⟨s0, hi⟩ := StakingPool.reachable_inv hre
  have hfit := StakingPool.fits_world hi hb
  have hST : S ≤ w.pool.totalStakedBalance := by
    rw [hS]; exact StakingPool.Arith.down_le_total (hi.pool.acc_le cfg.lockup)
  have hS128 : S < two128 := Nat.lt_of_le_of_lt hST hi.pool.lt
  have hop := Lockup.step_prepare (cfg := cfg.lk) (w := { s.lk with held := S + s.lk.held })
    hf hfs hs rfl (.inl ⟨rfl, rfl, rfl, rfl⟩) hv
  have r0 : Rel (S + s.lk.held) s { s.lk with held := S + s.lk.held } := rfl
  have r1 := rel_call (cfg := cfg) r0 f 0 (.foundation .terminationPrepareToWithdraw)
  have hpend : (Lockup.step cfg.lk { s.lk with held := S + s.lk.held }
      (.call f 0 (.foundation .terminationPrepareToWithdraw))).pend[s.lk.pend.length]? =
        some ⟨.poolStakedBalance p, some .onStakedToUnstake, .sent⟩ := by
    rw [hop]; exact Lockup.getElem?_last
  have hw1 : (step cfg s (.call f 0 (.foundation .terminationPrepareToWithdraw))).pools.get p =
    some w := hw
  obtain ⟨r2, hp2, hwl2, hpo2⟩ := rel_view (cfg := cfg) r1 .unit hpend rfl hw1 (v := S)
    (by rw [hS]; exact StakingPool.getStaked_total hi.pool _ _) (by omega)
  have r3 := rel_callback (cfg := cfg) r2 s.lk.pend.length
  have hfin := Lockup.run_termUnstake (cfg := cfg.lk) (w := { s.lk with held := S + s.lk.held })
    hf hfs hs rfl hv hS128
  simp only [Lockup.termUnstake, List.cons_append, List.nil_append, Lockup.run] at hfin
  have drop : ∀ s', Rel (S + s.lk.held) s' { s.lk with
        c := { s.lk.c with vesting := .terminating u .everythingUnstaked },
        held := S + s.lk.held } →
      Rel s.lk.held s' { s.lk with
        c := { s.lk.c with vesting := .terminating u .everythingUnstaked } } := by
    intro s' hr
    unfold Rel at hr ⊢
    exact congrArg (fun L : Lockup.World => { L with held := s.lk.held }) hr
  simp only [sysTermUnstake, List.cons_append, List.nil_append, run]
  by_cases h0 : S = 0
  · simp only [if_pos h0, run, Lockup.run] at hfin ⊢
    rw [hfin] at r3
    refine ⟨w, drop _ r3, ?_, rfl, ?_⟩
    · show (step cfg (step cfg s _) _).pools.get p = _
      rw [hp2]; exact hw
    · rw [worth_eq hre]; omega
  · simp only [if_neg h0, run, Lockup.run] at hfin ⊢
    have hpend3 := Lockup.prepare_pend (cfg := cfg.lk) (w := { s.lk with held := S + s.lk.held })
      hf hfs hs rfl hS128 h0 (.inl ⟨rfl, rfl, rfl⟩) hv
    simp only [Lockup.run] at hpend3
    have hw3 : (step cfg (step cfg (step cfg s
        (.call f 0 (.foundation .terminationPrepareToWithdraw)))
        (.execute s.lk.pend.length true .unit)) (.callback s.lk.pend.length)).pools.get p =
        some w := by
      show (step cfg (step cfg s _) _).pools.get p = _
      rw [hp2]; exact hw
    obtain ⟨q, effs, hx, hun⟩ := StakingPool.unstake_credits hre hb cfg.lockup (x := S) (by omega)
      (by omega)
    have hpaid := other_paid hre rfl hx
    obtain ⟨r4, hp4, hwl4, hpo4⟩ := rel_accept (cfg := cfg) r3 .unit
      (by rw [hpend3]; exact Lockup.getElem?_last) (c := .unstake S) rfl (.inl ⟨S, rfl⟩) hw3 hx hpaid
    have r5 := rel_callback (cfg := cfg) r4 s.lk.pend.length
    rw [hfin] at r5
    refine ⟨StakingPool.commit w cfg.lockup 0 (.unstake S) q effs, drop _ r5, ?_, rfl, ?_⟩
    · show (step cfg (step cfg (step cfg (step cfg s _) _) _) _).pools.get p = _
      rw [hp4, UMap.get_insert, if_pos rfl]
    · rw [worth_eq hre, ← hS]; exact hun

theorem sys_termFetch {cfg : Cfg} {a : Lockup.NewArgs} {s : Sys} (h : Inv cfg a s)
    {p : AccountId} {known u : Nat} {f : AccountId} {w : StakingPool.World}
    (hf : s.lk.c.foundation = some f) (hfs : f ≠ cfg.lockup)
    (hs : s.lk.c.staking = some ⟨p, false, known⟩)
    (hv : s.lk.c.vesting = .terminating u .everythingUnstaked)
    (hw : s.pools.get p = some w) (hb : StakingPool.Bounded w) {N : Nat}
    (hN : N = (StakingPool.getAcc w.pool cfg.lockup).unstaked)
    (hep : (StakingPool.getAcc w.pool cfg.lockup).unstakedAvailableEpoch ≤ w.epoch)
    (hliq : N ≤ w.liquid) :
    Rel 0 (run cfg s (sysTermFetch f s.lk.pend.length N))
        { s.lk with c := { s.lk.c with vesting := .terminating u .readyToWithdraw,
                                       staking := some ⟨p, false, known - N⟩ },
                    bal := s.lk.bal + N, held := 0 } := by
  obtain ⟨hpl, hre⟩ := h.pools p w hw
  obtain ⟨s0, hi⟩ := StakingPool.reachable_inv hre
  have hU := (StakingPool.fits_world hi hb).U cfg.lockup
  have hN128 : N < two128 := by
    have : (two128 : Nat) = 2 ^ 128 := rfl
    omega
  have hop := Lockup.step_prepare (cfg := cfg.lk) (w := { s.lk with held := N })
    hf hfs hs rfl (.inr ⟨rfl, rfl, rfl, rfl⟩) hv
  have r0 : Rel N s { s.lk with held := N } := rfl
  have r1 := rel_call (cfg := cfg) r0 f 0 (.foundation .terminationPrepareToWithdraw)
  have hpend : (Lockup.step cfg.lk { s.lk with held := N }
      (.call f 0 (.foundation .terminationPrepareToWithdraw))).pend[s.lk.pend.length]? =
        some ⟨.poolUnstakedBalance p, some .onUnstakedToWithdraw, .sent⟩ := by
    rw [hop]; exact Lockup.getElem?_last
  have hw1 : (step cfg s (.call f 0 (.foundation .terminationPrepareToWithdraw))).pools.get p =
    some w := hw
  obtain ⟨r2, hp2, hwl2, hpo2⟩ := rel_view (cfg := cfg) r1 .unit hpend rfl hw1 (v := N)
    (by rw [hN]; exact StakingPool.getUnstaked_total hi.pool _ _) (Nat.le_refl _)
  have r3 := rel_callback (cfg := cfg) r2 s.lk.pend.length
  have hfin := Lockup.run_termFetch (cfg := cfg.lk) (w := { s.lk with held := N })
    hf hfs hs rfl hv hN128 (Nat.le_refl _)
  simp only [Lockup.termFetch, List.cons_append, List.nil_append, Lockup.run, Nat.sub_self] at hfin
  simp only [sysTermFetch, List.cons_append, List.nil_append, run]
  by_cases h0 : N = 0
  · simp only [if_pos h0, run, Lockup.run] at hfin ⊢
    rw [hfin] at r3
    rw [← h0]; subst h0; exact r3
  · simp only [if_neg h0, run, Lockup.run] at hfin ⊢
    have hpend3 := Lockup.prepare_pend (cfg := cfg.lk) (w := { s.lk with held := N })
      hf hfs hs rfl hN128 h0 (.inr ⟨rfl, rfl, rfl⟩) hv
    simp only [Lockup.run] at hpend3
    have hw3 : (step cfg (step cfg (step cfg s
        (.call f 0 (.foundation .terminationPrepareToWithdraw)))
        (.execute s.lk.pend.length true .unit)) (.callback s.lk.pend.length)).pools.get p =
        some w := by
      show (step cfg (step cfg s _) _).pools.get p = _
      rw [hp2]; exact hw
    have hacc := StakingPool.getAccount_total hi.pool w.epoch cfg.lockup
    obtain ⟨q, effs, hx⟩ := (StakingPool.C07_withdraw_iff hre hb cfg.lockup N hacc).1.mpr
      ⟨by omega, by simp only; omega, by simp only [decide_eq_true_eq]; omega, hliq⟩
    have hpaid := (withdraw_paid hre hx).2
    obtain ⟨r4, hp4, hwl4, hpo4⟩ := rel_withdraw (cfg := cfg) r3 .unit
      (by rw [hpend3]; exact Lockup.getElem?_last) hw3 hx hpaid (Nat.le_refl _)
    have r5 := rel_callback (cfg := cfg) r4 s.lk.pend.length
    have r6 := rel_arrive (cfg := cfg) r5 N
    rw [hfin, Nat.sub_self] at r6
    exact r6

/-- The last stage is the one of the lockup world. -/
theorem sys_termPay {cfg : Cfg} {s : Sys} {f r : AccountId} {u : Nat}
    (hf : s.lk.c.foundation = some f) (hfs : f ≠ cfg.lockup) (hr : cfg.validAccountId r = true)
    (hv : s.lk.c.vesting = .terminating u .readyToWithdraw) (hu : 0 < u)
    (hbal : u + Lockup.minBalanceForStorage ≤ s.lk.bal) :
    (run cfg s (sysTermPay f s.lk.pend.length r)).lk =
      Lockup.run cfg.lk s.lk (Lockup.termPay f s.lk.pend.length r) := by
  have hpend := Lockup.pay_pend (cfg := cfg.lk) (w := s.lk) hf hfs hr hv hu hbal
  simp only [sysTermPay, run, Lockup.termPay, Lockup.run]
  have h1 : step cfg s (.call f 0 (.foundation (.terminationWithdraw r))) = { s with
    lk := Lockup.step cfg.lk s.lk (.call f 0 (.foundation (.terminationWithdraw r))) } := rfl
  rw [h1]
  generalize Lockup.step cfg.lk s.lk (.call f 0 (.foundation (.terminationWithdraw r))) = L at *
  have h2 : ∀ s' : Sys, (step cfg s' (.callback s.lk.pend.length)).lk =
    Lockup.step cfg.lk s'.lk (.callback s.lk.pend.length) := fun _ => rfl
  rw [h2]
  congr 1
  show (execute cfg { s with lk := L } s.lk.pend.length true .unit).lk =
    Lockup.execute cfg.lk L s.lk.pend.length .unit
  have hi : L.pend[s.lk.pend.length]? =
      some ⟨.transfer r u, some (.onWithdrawUnvested u r), .sent⟩ := by
    rw [hpend]; exact Lockup.getElem?_last
  simp only [execute, Lockup.execute, hi, runExt, callOf, viewOf, answered]
  rfl

end Verif.System
