import Verif.Factory.PoolProps2
import Verif.StakingPool.Props11
import Verif.StakingPool.Props12

/-!
# The life of a staking pool that was ordered from the factory (C116)
-/

namespace Verif.PoolFactory

open Verif Verif.Factory

/-! ## Helper lemmas -/

/-- What is known about a created pool and its order. -/
theorem ordered {cfg : Cfg} {w0 : World} (hs : Started cfg w0) (evs : List Ev)
    {id : AccountId} {acc : Created} (hacc : (run cfg w0 evs).accounts.get id = some acc) :
    ∃ name owner key fee, Asked cfg w0 evs acc.caller acc.pool.liquid name owner key fee ∧
      id = subAccount name cfg.self ∧ acc.pool.pool.ownerId = owner ∧
      acc.pool.pool.stakePublicKey = key ∧ acc.pool.pool.rewardFee = fee ∧
      StakingPool.Started (poolCfg cfg id) acc.pool := by
  obtain ⟨_, _, _, h4, h5, _⟩ := (reach_inv hs evs).accounts id acc hacc
  obtain ⟨name, owner, key, fee, g1, g2, g3, g4, g5⟩ := (origin hs evs).2 id acc hacc
  rw [← h5] at g1
  exact ⟨name, owner, key, fee, g1, g2, g3, g4, g5, h4⟩

/-- Owner, fee and key after a history of a pool. -/
theorem settings_run {cfg : StakingPool.Cfg} {p0 : StakingPool.World} (h0 : StakingPool.Started cfg p0)
    (evs : List StakingPool.Ev) :
    let p := (StakingPool.run cfg p0 evs).pool
    p.ownerId = p0.pool.ownerId ∧
    (p.rewardFee = p0.pool.rewardFee ∨
      .call p0.pool.ownerId 0 (.updateRewardFeeFraction p.rewardFee) ∈ evs) ∧
    (p.stakePublicKey = p0.pool.stakePublicKey ∨
      .call p0.pool.ownerId 0 (.updateStakingKey p.stakePublicKey) ∈ evs) := by
  obtain ⟨b, _, hi, _⟩ := StakingPool.started_inv h0
  have own : ∀ l, (StakingPool.run cfg p0 l).pool.ownerId = p0.pool.ownerId :=
    fun l => StakingPool.run_owner hi l
  refine ⟨own evs, ?_⟩
  induction evs using List.reverseRecOn with
  | nil => exact ⟨.inl rfl, .inl rfl⟩
  | append_singleton l ev ih =>
    have hr : StakingPool.run cfg p0 (l ++ [ev]) = StakingPool.step cfg (StakingPool.run cfg p0 l) ev := by
      rw [StakingPool.run_append]; rfl
    rw [hr]
    obtain ⟨h1, h2⟩ := StakingPool.C72_settings_history
      (w := StakingPool.run cfg p0 l) ⟨p0, l, h0, rfl⟩ ev
    simp only [StakingPool.getRewardFeeFraction, StakingPool.getStakingKey, StakingPool.getOwnerId,
      own l] at h1 h2
    refine ⟨?_, ?_⟩
    · rcases h1 with h1 | h1
      · rw [h1]; exact ih.1.imp id (fun h => List.mem_append_left _ h)
      · right; rw [← h1]; simp
    · rcases h2 with h2 | h2
      · rw [h2]; exact ih.2.imp id (fun h => List.mem_append_left _ h)
      · right; rw [← h2]; simp

/-! ## Property theorems -/

/-- **C116 (the settings).** Every pool the factory created was ordered by an accepted call. Whatever happens
on the pool afterwards, its owner is the one of the order, and its fee and staking key are those of the order
or those of a later call of this owner. The factory and whoever ordered the pool have no say. -/
theorem C116_settings_as_ordered {cfg : Cfg} {w0 : World} (hs : Started cfg w0) (evs : List Ev)
    {id : AccountId} {acc : Created} (hacc : (run cfg w0 evs).accounts.get id = some acc) :
    ∃ att name owner key fee, Asked cfg w0 evs acc.caller att name owner key fee ∧
      id = subAccount name cfg.self ∧
      ∀ evs', let p := (StakingPool.run (poolCfg cfg id) acc.pool evs').pool
        StakingPool.getOwnerId p = owner ∧
        (StakingPool.getRewardFeeFraction p = fee ∨
          .call owner 0 (.updateRewardFeeFraction (StakingPool.getRewardFeeFraction p)) ∈ evs') ∧
        (StakingPool.getStakingKey p = key ∨
          .call owner 0 (.updateStakingKey (StakingPool.getStakingKey p)) ∈ evs') := by
  obtain ⟨name, owner, key, fee, h1, h2, rfl, rfl, rfl, h3⟩ := ordered hs evs hacc
  exact ⟨_, name, _, _, _, h1, h2, fun evs' => settings_run h3 evs'⟩

/-- **C116 (the deposit of the order).** The deposit of the order belongs to nobody and stays: whatever happens
on the pool afterwards, the account holds it, except for the guarantee fund of 10^12 yocto, on top of what it owes
to any group of delegators; and no group ever holds and has been paid together more than it deposited on the
pool itself plus what came in as rewards and gifts, plus one yocto for each stake or unstake. Who paid for the
pool gets nothing for it. -/
theorem C116_deposit_stays {cfg : Cfg} {w0 : World} (hs : Started cfg w0) (evs : List Ev)
    {id : AccountId} {acc : Created} (hacc : (run cfg w0 evs).accounts.get id = some acc) :
    ∃ att name owner key fee, Asked cfg w0 evs acc.caller att name owner key fee ∧
      ∀ evs' (A : List AccountId), A.Nodup → ∀ un st : AccountId → Nat,
        let w := StakingPool.run (poolCfg cfg id) acc.pool evs'
        (∀ a ∈ A, StakingPool.getAccountUnstakedBalance w.epoch w.pool a = .ok (un a)) →
        (∀ a ∈ A, StakingPool.getAccountStakedBalance w.epoch w.pool a = .ok (st a)) →
        (w.roundings ≤ 10 ^ 12 →
          (A.map un).sum + (A.map st).sum + att ≤ w.liquid + w.locked + 10 ^ 12) ∧
        (A.map un).sum + (A.map st).sum + (A.map w.withdrawn).sum ≤
          (A.map w.deposited).sum + StakingPool.inflow evs' + w.roundings := by
  obtain ⟨name, owner, key, fee, h1, _, _, _, _, h3⟩ := ordered hs evs hacc
  refine ⟨_, name, owner, key, fee, h1, ?_⟩
  intro evs' A hA un st w hu hst
  refine ⟨fun hr => ?_, ?_⟩
  · obtain ⟨x, hx, hle⟩ := StakingPool.C102_pool_keeps_initial_balance h3 evs' hr A hA
    have hsum : ∀ l : List AccountId, (∀ a ∈ l, a ∈ A) → StakingPool.sumTotals w.epoch w.pool l =
        .ok ((l.map un).sum + (l.map st).sum) := by
      intro l
      induction l with
      | nil => intro _; rfl
      | cons a t ih =>
        intro hl
        have h1 := hu a (hl a (by simp))
        have h2 := hst a (hl a (by simp))
        have h3 := ih (fun b hb => hl b (by simp [hb]))
        simp only [StakingPool.getAccountUnstakedBalance, StakingPool.getAccountStakedBalance,
          bind_ok, pure_ok] at h1 h2
        obtain ⟨y, hy, hy2⟩ := h1
        obtain ⟨z, hz, hz2⟩ := h2
        rw [hy] at hz
        cases hz
        simp only [StakingPool.sumTotals, bind_ok, pure_ok, List.map_cons,
          List.sum_cons]
        exact ⟨y, hy, _, h3, by omega⟩
    rw [hsum A (fun _ h => h)] at hx
    have hx' := Except.ok.inj hx
    unfold StakingPool.guaranteeFund at hle
    have hle' : x + (acc.pool.liquid - 1000000000000) ≤ w.liquid + w.locked := hle
    omega
  · exact StakingPool.C113_from_the_start h3 hA evs' hu hst

/-- **C116 (the delegators).** On a pool from the factory nobody can lose by delegating, whoever ordered it and
whatever its owner does: at every moment the balances shown for an account and what it was paid are together at
least what it deposited. If it unstakes in some epoch and does not unstake again, then four epochs later
`withdraw_all` pays the whole unstaked balance, provided the runtime kept its two rules (C114). -/
theorem C116_delegators_are_paid {cfg : Cfg} {w0 : World} (hs : Started cfg w0) (evs : List Ev)
    {id : AccountId} {acc : Created} (hacc : (run cfg w0 evs).accounts.get id = some acc) {a : AccountId}
    (ha : a ≠ id) (before : List StakingPool.Ev) :
    let pc := poolCfg cfg id
    let w := StakingPool.run pc acc.pool before
    (∃ u x, StakingPool.getAccountUnstakedBalance w.epoch w.pool a = .ok u ∧
      StakingPool.getAccountStakedBalance w.epoch w.pool a = .ok x ∧
      w.deposited a ≤ u + x + w.withdrawn a) ∧
    ∀ c r after u, (c = .unstakeAll ∨ ∃ x, c = .unstake x) →
      StakingPool.exec (StakingPool.mkEnv pc w a 0 []) w.pool c = .ok r →
      (∀ ev ∈ after, ¬ ev.isUnstakeBy a) →
      let evs' := before ++ .call a 0 c :: after
      let w' := StakingPool.run pc acc.pool evs'
      StakingPool.Orderly pc acc.pool (StakingPool.startLog acc.pool) evs' →
      StakingPool.Unlocks pc acc.pool evs' → StakingPool.Bounded w' → w.epoch + 4 ≤ w'.epoch →
      StakingPool.getAccountUnstakedBalance w'.epoch w'.pool a = .ok u → 0 < u →
      (StakingPool.run pc acc.pool (evs' ++ [.call a 0 .withdrawAll])).withdrawn a = w'.withdrawn a + u := by
  obtain ⟨name, owner, key, fee, _, _, _, _, _, h3⟩ := ordered hs evs hacc
  intro pc w
  refine ⟨StakingPool.C03_no_account_loses ⟨acc.pool, before, h3, rfl⟩ a, ?_⟩
  intro c r after u hc hx hn evs' w' ho hu hb he hv hpos
  exact (StakingPool.C114_four_epochs_suffice h3 before ha hc hx after hn ho hu hb he hv hpos).1

/-! ## A concrete order -/

/-- `alice` orders a pool for `owner` with 30 NEAR and it is created. -/
def orderEvs : List Ev := [.create "alice" minAttachedBalance "p" "owner" "key" ⟨1, 10⟩, .deliver 0 true]

/-- The pool. -/
def orderPool : StakingPool.World :=
  (((run demoCfg demo0 orderEvs).accounts.get "p.factory").map (·.pool)).getD StakingPool.demo0

/-- A life of the pool: Bob stakes, the payer `alice` tries to take the deposit and to change the fee, the
factory tries to change the key, rewards arrive, the owner raises the fee. -/
def poolLife : List StakingPool.Ev :=
  [.deliver 0 true, .call "bob" (5 * 10 ^ 24) .depositAndStake, .deliver 1 true,
   .call "alice" 0 .withdrawAll, .call "alice" 0 .unstakeAll,
   .call "alice" 0 (.updateRewardFeeFraction ⟨0, 1⟩), .call "factory" 0 (.updateStakingKey "key2"),
   .epochs 1, .reward (10 ^ 22), .call "owner" 0 (.updateRewardFeeFraction ⟨1, 5⟩), .deliver 2 true]

/-- After Bob has left: the stake action is executed, four epochs pass, the runtime gives the tokens back, and
the owner pauses the pool. -/
def poolLeave : List StakingPool.Ev :=
  [.deliver 3 true, .epochs 2, .call "bob" 0 .ping, .deliver 4 true, .epochs 2,
   .unlock 5001285714285714322448979,
   .call "owner" 0 .pauseStaking]

theorem order_created : ((run demoCfg demo0 orderEvs).accounts.get "p.factory").isSome = true := by
  decide +kernel

/-- Fee, key, owner and balances after this life. -/
example :
    let w := StakingPool.run (poolCfg demoCfg "p.factory") orderPool poolLife
    StakingPool.getOwnerId w.pool = "owner" ∧ StakingPool.getRewardFeeFraction w.pool = ⟨1, 5⟩ ∧
    StakingPool.getStakingKey w.pool = "key" ∧ w.roundings ≤ 10 ^ 12 ∧
    StakingPool.getAccountTotalBalance w.epoch w.pool "alice" = .ok 0 ∧
    (StakingPool.getAccountTotalBalance w.epoch w.pool "bob").toOption.any (fun x => decide (5 * 10 ^ 24 < x)) ∧
    35 * 10 ^ 24 < w.liquid + w.locked := by
  decide +kernel

/-- The hypotheses of `C116_delegators_are_paid` are met: Bob unstakes everything, and the runtime gives the
tokens back. -/
example :
    let pc := poolCfg demoCfg "p.factory"
    let w := StakingPool.run pc orderPool poolLife
    let evs' := poolLife ++ .call "bob" 0 .unstakeAll :: poolLeave
    let w' := StakingPool.run pc orderPool evs'
    (StakingPool.exec (StakingPool.mkEnv pc w "bob" 0 []) w.pool .unstakeAll).isOk = true ∧
    (∀ ev ∈ poolLeave, ¬ ev.isUnstakeBy "bob") ∧
    StakingPool.Orderly pc orderPool (StakingPool.startLog orderPool) evs' ∧
    StakingPool.Unlocks pc orderPool evs' ∧ StakingPool.Bounded w' ∧ w.epoch + 4 ≤ w'.epoch ∧
    (StakingPool.getAccountUnstakedBalance w'.epoch w'.pool "bob").toOption.any (fun u => decide (0 < u)) := by
  refine ⟨by decide +kernel, by simp [poolLeave, StakingPool.Ev.isUnstakeBy, StakingPool.Call.isUnstake], by decide +kernel, ?_,
    ⟨by decide +kernel, by decide +kernel, by decide +kernel⟩, by decide +kernel, by decide +kernel⟩
  exact ⟨poolLife ++ .call "bob" 0 .unstakeAll :: poolLeave.take 1, poolLeave.drop 1, rfl, by decide +kernel,
    by decide +kernel⟩

end Verif.PoolFactory
