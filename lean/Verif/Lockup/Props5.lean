import Verif.Lockup.Live
import Verif.Lockup.Demo

/-!
# Properties C74-C79 of the lockup: exact calls, bookkeeping of the deposit, balance views, recovery

The specifications below are plain tables, written from lockup/README.md and the documentation
comments of lockup/src/owner.rs.
-/

namespace Verif.Lockup

open Verif

/-! ## C74: what each call does -/

/-- The one receipt each staking operation of the owner sends to the selected pool, and the callback
that handles its answer. -/
def poolPromise (pool : AccountId) : OwnerCall → Option Eff
  | .depositToStakingPool a => some ⟨.poolDeposit pool a, some (.onDeposit a)⟩
  | .depositAndStake a => some ⟨.poolDepositAndStake pool a, some (.onDepositAndStake a)⟩
  | .refreshStakingPoolBalance => some ⟨.poolTotalBalance pool, some .onTotalBalance⟩
  | .withdrawFromStakingPool a => some ⟨.poolWithdraw pool a, some (.onWithdraw a)⟩
  | .withdrawAllFromStakingPool => some ⟨.poolUnstakedBalance pool, some .onUnstakedToWithdrawByOwner⟩
  | .stake a => some ⟨.poolStake pool a, some (.onStake a)⟩
  | .unstake a => some ⟨.poolUnstake pool a, some (.onUnstake a)⟩
  | .unstakeAll => some ⟨.poolUnstakeAll pool, some .onUnstakeAll⟩
  | _ => none

/-- The amount argument of a staking operation. -/
def opAmount : OwnerCall → Option Nat
  | .depositToStakingPool a => some a
  | .depositAndStake a => some a
  | .withdrawFromStakingPool a => some a
  | .stake a => some a
  | .unstake a => some a
  | _ => none

/-- The amount that has to be on the account on top of the storage reserve. -/
def opSpends : OwnerCall → Nat
  | .depositToStakingPool a => a
  | .depositAndStake a => a
  | _ => 0

/-- **C74.** A staking operation is accepted exactly when the owner calls it without a deposit, with a
positive amount, on an idle selected pool, with no termination in progress and with the spent amount
on the account beyond the storage reserve. It then marks the pool as busy, changes nothing else and
sends exactly the receipt of the table. -/
theorem C74_pool_calls_exact {c : OwnerCall} (hc : ∀ p, poolPromise p c ≠ none) (e : Env)
    (s s' : Lockup) (eff : Option Eff) :
    exec e s (.owner c) = .ok (s', eff) ↔
      e.attachedDeposit = 0 ∧ e.predecessor = s.owner ∧
      (∀ a, opAmount c = some a → 0 < a ∧ a < two128) ∧
      (0 < opSpends c → opSpends c + 35 * 10 ^ 23 ≤ e.accountBalance) ∧
      (∀ u st, s.vesting ≠ .terminating u st) ∧
      ∃ pool known, s.staking = some ⟨pool, false, known⟩ ∧
        s' = { s with staking := some ⟨pool, true, known⟩ } ∧ eff = poolPromise pool c := by
  rw [← minBalanceForStorage_eq]
  have hterm : (∀ u st, s.vesting ≠ .terminating u st) ↔ s.vesting.isTerminating = false := by
    cases s.vesting <;> simp [Vesting.isTerminating]
  have hex : ∀ P : StakingInfo → Prop, (∃ si, s.staking = some si ∧ si.busy = false ∧ P si) ↔
      ∃ pool known, s.staking = some ⟨pool, false, known⟩ ∧ P ⟨pool, false, known⟩ := by
    intro P
    constructor
    · rintro ⟨⟨p, b, d⟩, h1, h2, h3⟩
      simp only at h2; subst h2
      exact ⟨p, d, h1, h3⟩
    · rintro ⟨p, d, h1, h3⟩
      exact ⟨_, h1, rfl, h3⟩
  rw [hterm]
  have hop : ∀ mk : AccountId → Eff, poolOp s mk = .ok (s', eff) ↔
      s.vesting.isTerminating = false ∧ ∃ pool known, s.staking = some ⟨pool, false, known⟩ ∧
        s' = { s with staking := some ⟨pool, true, known⟩ } ∧ eff = some (mk pool) := by
    intro mk
    rw [poolOp_ok]
    constructor
    · rintro ⟨si, h1, h2, h3, h4, h5⟩
      exact ⟨h3, (hex fun si => s' = { s with staking := some ⟨si.pool, true, si.deposit⟩ } ∧
        eff = some (mk si.pool)).mp ⟨si, h1, h2, h4, h5⟩⟩
    · rintro ⟨h3, p, k, h1, h4, h5⟩
      exact ⟨_, h1, rfl, h3, h4, h5⟩
  have hdep : ∀ (a : Nat) (mk : AccountId → Eff),
      (∃ si : StakingInfo, (s.staking = some si ∧ si.busy = false) ∧ ∃ _ : Unit,
        s.vesting.isTerminating = false ∧ ∃ _ : Unit, getAccountBalance e ≥ a ∧ ∃ s1,
        (∃ si', s.staking = some si' ∧ s1 = { s with staking := some ⟨si'.pool, true, si'.deposit⟩ }) ∧
        s1 = s' ∧ some (mk si.pool) = eff) ↔
      getAccountBalance e ≥ a ∧ s.vesting.isTerminating = false ∧
      ∃ pool known, s.staking = some ⟨pool, false, known⟩ ∧
        s' = { s with staking := some ⟨pool, true, known⟩ } ∧ eff = some (mk pool) := by
    intro a mk
    constructor
    · rintro ⟨⟨p, b, d⟩, ⟨h1, h2⟩, _, h3, _, h4, s1, ⟨si', h5, rfl⟩, rfl, rfl⟩
      simp only at h2; subst h2
      rw [h1] at h5; cases h5
      exact ⟨h4, h3, p, d, h1, rfl, rfl⟩
    · rintro ⟨h4, h3, p, d, h1, rfl, rfl⟩
      exact ⟨_, ⟨h1, rfl⟩, (), h3, (), h4, _, ⟨_, h1, rfl⟩, rfl, rfl⟩
  have hbal : ∀ a, 0 < a → (getAccountBalance e ≥ a ↔ a + minBalanceForStorage ≤ e.accountBalance) := by
    intro a ha; unfold getAccountBalance; omega
  cases c with
  | selectStakingPool p => exact absurd rfl (hc "")
  | unselectStakingPool => exact absurd rfl (hc "")
  | checkTransfersVote => exact absurd rfl (hc "")
  | transfer a r => exact absurd rfl (hc "")
  | addFullAccessKey k => exact absurd rfl (hc "")
  | depositToStakingPool a =>
    simp only [exec, execOwner, depositToStakingPool, bind_ok, notPayable_ok, assertOwner_ok,
      decodeU128_ok, require_ok, assertIdle_ok, assertNoTermination_ok, setBusy_ok, pure_ok,
      Prod.mk.injEq, exists_const, opAmount, opSpends, poolPromise, Option.some.injEq, forall_eq']
    have := hdep a (fun p => ⟨.poolDeposit p a, some (.onDeposit a)⟩)
    simp only [exists_const] at this
    rw [this]
    constructor
    · rintro ⟨h1, h2, h3, h4, h5, h6⟩
      exact ⟨h1, h3, ⟨h4, h2⟩, fun h => (hbal a h).mp h5, h6⟩
    · rintro ⟨h1, h3, ⟨h4, h2⟩, h5, h6⟩
      exact ⟨h1, h2, h3, h4, (hbal a h4).mpr (h5 h4), h6⟩
  | depositAndStake a =>
    simp only [exec, execOwner, depositAndStake, bind_ok, notPayable_ok, assertOwner_ok,
      decodeU128_ok, require_ok, assertIdle_ok, assertNoTermination_ok, setBusy_ok, pure_ok,
      Prod.mk.injEq, exists_const, opAmount, opSpends, poolPromise, Option.some.injEq, forall_eq']
    have := hdep a (fun p => ⟨.poolDepositAndStake p a, some (.onDepositAndStake a)⟩)
    simp only [exists_const] at this
    rw [this]
    constructor
    · rintro ⟨h1, h2, h3, h4, h5, h6⟩
      exact ⟨h1, h3, ⟨h4, h2⟩, fun h => (hbal a h).mp h5, h6⟩
    · rintro ⟨h1, h3, ⟨h4, h2⟩, h5, h6⟩
      exact ⟨h1, h2, h3, h4, (hbal a h4).mpr (h5 h4), h6⟩
  | refreshStakingPoolBalance =>
    simp [exec, execOwner, refreshStakingPoolBalance, bind_ok, hop, opAmount, opSpends, poolPromise]
  | withdrawFromStakingPool a =>
    simp only [exec, execOwner, withdrawFromStakingPool, bind_ok, notPayable_ok, assertOwner_ok, decodeU128_ok,
      require_ok, hop, exists_const, opAmount, opSpends, poolPromise, Option.some.injEq, forall_eq',
      Nat.lt_irrefl, false_imp_iff, true_and]
    constructor
    · rintro ⟨h1, h2, h3, h4, h5⟩; exact ⟨h1, h3, ⟨h4, h2⟩, h5⟩
    · rintro ⟨h1, h3, ⟨h4, h2⟩, h5⟩; exact ⟨h1, h2, h3, h4, h5⟩
  | withdrawAllFromStakingPool =>
    simp [exec, execOwner, withdrawAllFromStakingPool, bind_ok, hop, opAmount, opSpends, poolPromise]
  | stake a =>
    simp only [exec, execOwner, stake, bind_ok, notPayable_ok, assertOwner_ok, decodeU128_ok,
      require_ok, hop, exists_const, opAmount, opSpends, poolPromise, Option.some.injEq, forall_eq',
      Nat.lt_irrefl, false_imp_iff, true_and]
    constructor
    · rintro ⟨h1, h2, h3, h4, h5⟩; exact ⟨h1, h3, ⟨h4, h2⟩, h5⟩
    · rintro ⟨h1, h3, ⟨h4, h2⟩, h5⟩; exact ⟨h1, h2, h3, h4, h5⟩
  | unstake a =>
    simp only [exec, execOwner, unstake, bind_ok, notPayable_ok, assertOwner_ok, decodeU128_ok,
      require_ok, hop, exists_const, opAmount, opSpends, poolPromise, Option.some.injEq, forall_eq',
      Nat.lt_irrefl, false_imp_iff, true_and]
    constructor
    · rintro ⟨h1, h2, h3, h4, h5⟩; exact ⟨h1, h3, ⟨h4, h2⟩, h5⟩
    · rintro ⟨h1, h3, ⟨h4, h2⟩, h5⟩; exact ⟨h1, h2, h3, h4, h5⟩
  | unstakeAll =>
    simp [exec, execOwner, unstakeAll, bind_ok, hop, opAmount, opSpends, poolPromise]

/-- **C74.** Selecting a pool: accepted exactly from the owner, without a deposit, for a valid account
id, with no pool selected and no termination. It only asks the whitelist about that pool. -/
theorem C74_select_exact (e : Env) (s s' : Lockup) (eff : Option Eff) (p : AccountId) :
    exec e s (.owner (.selectStakingPool p)) = .ok (s', eff) ↔
      e.attachedDeposit = 0 ∧ e.predecessor = s.owner ∧ e.validAccountId p = true ∧
      s.staking = none ∧ (∀ u st, s.vesting ≠ .terminating u st) ∧ s' = s ∧
      eff = some ⟨.isWhitelisted s.whitelist p, some (.onWhitelist p)⟩ := by
  have hterm : (∀ u st, s.vesting ≠ .terminating u st) ↔ s.vesting.isTerminating = false := by
    cases s.vesting <;> simp [Vesting.isTerminating]
  rw [hterm]
  simp only [exec, execOwner, selectStakingPool, bind_ok, notPayable_ok, assertOwner_ok, require_ok,
    assertNotSelected_ok, assertNoTermination_ok, pure_ok, Prod.mk.injEq, exists_const]
  constructor
  · rintro ⟨h0, h1, h2, h3, h4, rfl, rfl⟩; exact ⟨h0, h1, h2, h3, h4, rfl, rfl⟩
  · rintro ⟨h0, h1, h2, h3, h4, rfl, rfl⟩; exact ⟨h0, h1, h2, h3, h4, rfl, rfl⟩

/-- **C74.** Unselecting: accepted exactly from the owner, without a deposit, for an idle pool with a
known deposit of zero and no termination. It forgets the pool and sends nothing. -/
theorem C74_unselect_exact (e : Env) (s s' : Lockup) (eff : Option Eff) :
    exec e s (.owner .unselectStakingPool) = .ok (s', eff) ↔
      e.attachedDeposit = 0 ∧ e.predecessor = s.owner ∧
      (∃ pool, s.staking = some ⟨pool, false, 0⟩) ∧ (∀ u st, s.vesting ≠ .terminating u st) ∧
      s' = { s with staking := none } ∧ eff = none := by
  have hterm : (∀ u st, s.vesting ≠ .terminating u st) ↔ s.vesting.isTerminating = false := by
    cases s.vesting <;> simp [Vesting.isTerminating]
  rw [hterm]
  simp only [exec, execOwner, unselectStakingPool, bind_ok, notPayable_ok, assertOwner_ok, require_ok,
    assertIdle_ok, assertNoTermination_ok, pure_ok, Prod.mk.injEq, exists_const]
  constructor
  · rintro ⟨h0, h1, ⟨p, b, d⟩, ⟨h2, h3⟩, h4, h5, rfl, rfl⟩
    simp only at h3 h5; subst h3 h5
    exact ⟨h0, h1, ⟨p, h2⟩, h4, rfl, rfl⟩
  · rintro ⟨h0, h1, ⟨p, h2⟩, h4, rfl, rfl⟩
    exact ⟨h0, h1, _, ⟨h2, rfl⟩, h4, rfl, rfl, rfl⟩

/-- **C74.** Asking the transfer poll: accepted exactly from the owner, without a deposit, while
transfers are disabled and there is no termination. It only asks the stored poll. -/
theorem C74_vote_exact (e : Env) (s s' : Lockup) (eff : Option Eff) :
    exec e s (.owner .checkTransfersVote) = .ok (s', eff) ↔
      e.attachedDeposit = 0 ∧ e.predecessor = s.owner ∧ (∀ u st, s.vesting ≠ .terminating u st) ∧
      s' = s ∧ ∃ poll, s.info.transfers = .disabled poll ∧
        eff = some ⟨.getResult poll, some .onPollResult⟩ := by
  have hterm : (∀ u st, s.vesting ≠ .terminating u st) ↔ s.vesting.isTerminating = false := by
    cases s.vesting <;> simp [Vesting.isTerminating]
  rw [hterm]
  simp only [exec, execOwner, checkTransfersVote, bind_ok, notPayable_ok, assertOwner_ok,
    exists_const]
  cases ht : s.info.transfers with
  | enabled t => simp [throw_ok]
  | disabled p =>
    simp only [bind_ok, assertNoTermination_ok, pure_ok, Prod.mk.injEq, exists_const,
      Transfers.disabled.injEq, exists_eq_left']
    constructor
    · rintro ⟨h0, h1, h2, rfl, rfl⟩; exact ⟨h0, h1, h2, rfl, rfl⟩
    · rintro ⟨h0, h1, h2, rfl, rfl⟩; exact ⟨h0, h1, h2, rfl, rfl⟩

/-- The schedule the foundation refers to: the public one without an argument, or a presented one
(of `u64` timestamps) whose salted hash is the committed one. -/
def Presents (e : Env) (s : Lockup) (arg : Option ScheduleWithSalt) (vs : Schedule) : Prop :=
  (s.vesting = .schedule vs ∧ arg = none) ∨
  ∃ x, arg = some x ∧ x.schedule = vs ∧ s.vesting = .hash (e.sha256 x.borsh) ∧
    vs.start < two64 ∧ vs.cliff < two64 ∧ vs.finish < two64

/-- **C74.** Terminating the vesting: accepted exactly from the foundation, without a deposit, for the
right schedule with something unvested. It fixes the documented unvested amount, needs the pool
exactly when a pool is selected and the account lacks that amount beyond the storage reserve, sends
nothing and changes nothing else. -/
theorem C74_terminate_exact {cfg : Cfg} {a : NewArgs} {w : World} (h : Reachable cfg a w)
    (hv : VestingOk cfg (argVesting a)) (e : Env) (he : e.sha256 = cfg.sha256) (s' : Lockup)
    (eff : Option Eff) (arg : Option ScheduleWithSalt) :
    exec e w.c (.foundation (.terminateVesting arg)) = .ok (s', eff) ↔
      e.attachedDeposit = 0 ∧ w.c.foundation = some e.predecessor ∧ eff = none ∧
      ∃ vs, Presents e w.c arg vs ∧ 0 < specUnvested w.c.info.lockupAmount vs e.now ∧
        s' = { w.c with
          vesting := .terminating (specUnvested w.c.info.lockupAmount vs e.now)
            (if w.c.staking ≠ none ∧ e.accountBalance <
                specUnvested w.c.info.lockupAmount vs e.now + 35 * 10 ^ 23 then
              .terminatedWithDeficit else .readyToWithdraw) } := by
  rw [← minBalanceForStorage_eq]
  have hg := reachable_good h hv
  have hval : ∀ vs, Presents e w.c arg vs → assertVesting e w.c arg = .ok vs ∧
      (vs.start < two64 ∧ vs.cliff < two64 ∧ vs.finish < two64) ∧
      getUnvestedAmount e w.c vs = .ok (specUnvested w.c.info.lockupAmount vs e.now) := by
    rintro vs (⟨h1, rfl⟩ | ⟨x, rfl, rfl, h1, h2⟩)
    · obtain ⟨g1, g2, _⟩ := hg.1.sched vs h1
      have hlt : vs.start < two64 ∧ vs.cliff < two64 ∧ vs.finish < two64 := by
        have := g1.1; have := g1.2; omega
      refine ⟨by simp only [assertVesting, h1, bind_ok, require_ok, pure_ok]; exact ⟨(), trivial, trivial⟩, hlt, ?_⟩
      simp only [getUnvestedAmount, h1]
      rw [scheduleUnvested_eq hg.1.amt g1 g2, unvestedVal_spec]
    · have g1 : x.schedule.Valid := by
        have := hg.2
        rw [h1] at this
        exact this x h2.1 h2.2.1 h2.2.2 (by rw [he])
      refine ⟨?_, h2, ?_⟩
      · simp only [assertVesting, h1, bind_ok, require_ok, pure_ok]
        exact ⟨(), rfl, trivial⟩
      · simp only [getUnvestedAmount, h1]
        rw [scheduleUnvested_eq hg.1.amt g1 h2.2.2, unvestedVal_spec]
  simp only [exec, execFoundation, terminateVesting, decodeSchedule, bind_ok, notPayable_ok,
    assertFoundation_ok, decodeU64_ok, require_ok, pure_ok, Prod.mk.injEq, exists_const]
  have hst : ∀ u : Nat, 0 < u → (if u - getAccountBalance e > 0 ∧ w.c.staking.isSome = true then
      TStatus.terminatedWithDeficit else TStatus.readyToWithdraw) =
      (if w.c.staking ≠ none ∧ e.accountBalance < u + minBalanceForStorage then
        .terminatedWithDeficit else .readyToWithdraw) := by
    intro u hu
    have : (u - getAccountBalance e > 0 ∧ w.c.staking.isSome = true) ↔
        (w.c.staking ≠ none ∧ e.accountBalance < u + minBalanceForStorage) := by
      rw [Option.isSome_iff_ne_none]
      unfold getAccountBalance
      constructor
      · rintro ⟨h1, h2⟩; exact ⟨h2, by omega⟩
      · rintro ⟨h1, h2⟩; exact ⟨by omega, h1⟩
    simp only [this]
  constructor
  · rintro ⟨h0, h1, vs, h2, ⟨h3a, h3b, h3c⟩, u, h4, h5, rfl, rfl⟩
    have hp : Presents e w.c arg vs := by
      rcases assertVesting_ok h2 with hA | ⟨x, g1, g2, g3⟩
      · exact .inl hA
      · exact .inr ⟨x, g1, g2, g3, h3a, h3b, h3c⟩
    obtain ⟨_, _, hu⟩ := hval vs hp
    rw [hu] at h4; cases h4
    exact ⟨h0, h1, rfl, vs, hp, h5, by rw [hst _ h5]⟩
  · rintro ⟨h0, h1, rfl, vs, hp, h5, rfl⟩
    obtain ⟨g1, g2, g3⟩ := hval vs hp
    exact ⟨h0, h1, vs, g1, g2, _, g3, h5, by rw [hst _ h5], rfl⟩

/-- **C74.** The two calls with which the foundation collects the unvested tokens do exactly this: in
`TerminatedWithDeficit` ask the pool for the staked balance, in `EverythingUnstaked` for the unstaked
balance; in every other status the preparation is rejected. -/
theorem C74_prepare_exact (e : Env) (s s' : Lockup) (eff : Option Eff) :
    exec e s (.foundation .terminationPrepareToWithdraw) = .ok (s', eff) ↔
      e.attachedDeposit = 0 ∧ s.foundation = some e.predecessor ∧
      ∃ pool known u, s.staking = some ⟨pool, false, known⟩ ∧
        ((s.vesting = .terminating u .terminatedWithDeficit ∧
          s' = { s with vesting := .terminating u .unstakingInProgress,
                        staking := some ⟨pool, true, known⟩ } ∧
          eff = some ⟨.poolStakedBalance pool, some .onStakedToUnstake⟩) ∨
         (s.vesting = .terminating u .everythingUnstaked ∧
          s' = { s with vesting := .terminating u .withdrawingFromPool,
                        staking := some ⟨pool, true, known⟩ } ∧
          eff = some ⟨.poolUnstakedBalance pool, some .onUnstakedToWithdraw⟩)) := by
  constructor
  · intro h
    obtain ⟨h0, h1, hr⟩ := execFoundation_rel (c := .terminationPrepareToWithdraw) h
    refine ⟨h0, h1, ?_⟩
    cases hr with
    | prepareUnstake si u g1 g2 g3 =>
      obtain ⟨p, b, d⟩ := si
      simp only at g2; subst g2
      exact ⟨p, d, u, g1, .inl ⟨g3, rfl, rfl⟩⟩
    | prepareWithdraw si u g1 g2 g3 =>
      obtain ⟨p, b, d⟩ := si
      simp only at g2; subst g2
      exact ⟨p, d, u, g1, .inr ⟨g3, rfl, rfl⟩⟩
  · rintro ⟨h0, h1, p, d, u, g1, ⟨g2, rfl, rfl⟩ | ⟨g2, rfl, rfl⟩⟩
    · exact exec_prepare h0 h1 g1 rfl (.inl ⟨rfl, rfl, rfl, rfl⟩) g2
    · exact exec_prepare h0 h1 g1 rfl (.inr ⟨rfl, rfl, rfl, rfl⟩) g2

/-- **C74.** The payment to the foundation: accepted exactly from the foundation when the status is
`ReadyToWithdraw`, to a valid account, of the smaller of the unvested amount and the balance beyond
the storage reserve, if positive. -/
theorem C74_termination_withdraw_exact (e : Env) (s s' : Lockup) (eff : Option Eff) (r : AccountId) :
    exec e s (.foundation (.terminationWithdraw r)) = .ok (s', eff) ↔
      e.attachedDeposit = 0 ∧ s.foundation = some e.predecessor ∧ e.validAccountId r = true ∧
      ∃ u x, s.vesting = .terminating u .readyToWithdraw ∧
        x = min u (e.accountBalance - 35 * 10 ^ 23) ∧ 0 < x ∧
        s' = { s with vesting := .terminating u .withdrawingFromAccount } ∧
        eff = some ⟨.transfer r x, some (.onWithdrawUnvested x r)⟩ := by
  rw [← minBalanceForStorage_eq]
  simp only [exec, execFoundation, terminationWithdraw, bind_ok, notPayable_ok, assertFoundation_ok,
    require_ok, terminationStatus_some, setTermination_ok, pure_ok, Prod.mk.injEq, exists_const]
  constructor
  · rintro ⟨h0, h1, h2, ⟨u, hv⟩, h4, s1, ⟨u', old, hv', rfl⟩, rfl, rfl⟩
    rw [hv] at hv'; cases hv'
    have hu : terminatedUnvested s = u := by simp [terminatedUnvested, hv]
    rw [hu] at h4 ⊢
    exact ⟨h0, h1, h2, u, _, hv, rfl, h4, rfl, rfl⟩
  · rintro ⟨h0, h1, h2, u, x, hv, rfl, h4, rfl, rfl⟩
    have hu : terminatedUnvested s = u := by simp [terminatedUnvested, hv]
    rw [hu]
    exact ⟨h0, h1, h2, ⟨u, hv⟩, h4, _, ⟨u, _, hv, rfl⟩, rfl, rfl⟩

/- The hypotheses are met and the calls succeed. -/
example : ∀ p, poolPromise p (.unstake 7) ≠ none := by intro p h; cases h
example : (exec (mkEnv demoCfg demoStaked "owner" 0 none) demoStaked.c
    (.owner (.unstake 7))).toBool = true := by decide +kernel
example : (exec (mkEnv demoCfg (startOf demoArgs) "owner" 0 none) (startOf demoArgs).c
    (.owner (.selectStakingPool "p"))).toBool = true := by decide +kernel
example : (exec (mkEnv demoCfg (startOf pollArgs) "owner" 0 none) (startOf pollArgs).c
    (.owner .checkTransfersVote)).toBool = true := by decide +kernel
example : Presents (mkEnv demoCfg demoStaked "fdn" 0 none) demoStaked.c none ⟨100, 2000, 4000⟩ :=
  .inl ⟨by decide +kernel, rfl⟩
example : (exec (mkEnv demoCfg demoStaked "fdn" 0 none) demoStaked.c
    (.foundation (.terminateVesting none))).toBool = true := by decide +kernel
/-- The demo lockup after the termination of its vesting. -/
def demoTerm5 : World :=
  run demoCfg demoStaked [.call "fdn" 0 (.foundation (.terminateVesting none))]
example : demoTerm5.c.vesting = .terminating tenNear .terminatedWithDeficit := by
  decide +kernel
example : (exec (mkEnv demoCfg demoTerm5 "fdn" 0 none) demoTerm5.c
    (.foundation .terminationPrepareToWithdraw)).toBool = true := by decide +kernel

/-! ## C75: the known deposit -/

/-- What the answer of the pool to a staking operation should do to the known deposit. -/
def recorded (known : Nat) : Callback → PResult → Nat
  | .onDeposit a, r => if r = .failed then known else known + a
  | .onDepositAndStake a, r => if r = .failed then known else known + a
  | .onWithdraw a, r => if r = .failed then known else known - a
  | .onWithdrawForTermination a, r => if r = .failed then known else known - a
  | .onTotalBalance, .balance v => v
  | _, _ => known

theorem isOk_iff {r : PResult} : r.isOk = true ↔ r ≠ .failed := by cases r <;> simp [PResult.isOk]

theorem cbRel_known {s s' : Lockup} {r : PResult} {cb : Callback} {eff : Option Eff}
    (h : CbRel s r cb s' eff) : knownDeposited s' = recorded (knownDeposited s) cb r := by
  have nok : ∀ {r : PResult}, r.isOk = false → r = .failed := by
    intro r hr; cases r <;> simp [PResult.isOk] at hr ⊢
  cases h with
  | whitelist p h1 h2 h3 => simp [knownDeposited, h2, recorded]
  | depositOk _ a si h1 h2 h3 h4 =>
    have := isOk_iff.mp h2
    rcases h1 with rfl | rfl <;> simp [recorded, this, h3, withDeposit, knownDeposited]
  | depositFailed _ a si h1 h2 h3 =>
    have := nok h2
    rcases h1 with rfl | rfl <;> simp [recorded, this, h3, withDeposit, knownDeposited]
  | withdrawOk a si h1 h2 =>
    have := isOk_iff.mp h1
    simp [recorded, this, h2, withDeposit, knownDeposited]
  | withdrawFailed a si h1 h2 =>
    have := nok h1
    simp [recorded, this, h2, withDeposit, knownDeposited]
  | stakeLike _ si h1 h2 =>
    rcases h1 with ⟨a, rfl⟩ | ⟨a, rfl⟩ | rfl <;>
      simp [recorded, h2, withDeposit, knownDeposited]
  | pollYes t h1 h2 h3 => simp [recorded, knownDeposited]
  | pollNo h1 h2 => simp [recorded]
  | total n si h1 h2 h3 => subst h1; simp [recorded, withDeposit, knownDeposited]
  | unstakedSome n si h1 h2 h3 h4 => simp [recorded]
  | unstakedNone si h1 h2 => simp [recorded, h2, withDeposit, knownDeposited]
  | tStakedSome n si h1 h2 h3 h4 => simp [recorded]
  | tStakedNone si u old h1 h2 h3 => simp [recorded, h2, withDeposit, knownDeposited]
  | tUnstake a si u old h1 h2 => simp [recorded, h1, withDeposit, knownDeposited]
  | tUnstakedSome n si h1 h2 h3 h4 => simp [recorded]
  | tUnstakedNone si u old h1 h2 h3 => simp [recorded, h2, withDeposit, knownDeposited]
  | tWithdrawOk a si u old h1 h2 h3 =>
    have := isOk_iff.mp h1
    simp [recorded, this, h2, withDeposit, knownDeposited]
  | tWithdrawFailed a si u old h1 h2 h3 =>
    have := nok h1
    simp [recorded, this, h2, withDeposit, knownDeposited]
  | paidSome a rc h1 h2 h3 => simp [recorded, knownDeposited]
  | paidAll a rc h1 h2 h3 => simp [recorded, knownDeposited]
  | paidFailed a rc u old h1 h2 => simp [recorded, knownDeposited]

/-- **C75.** The known deposit changes only when the callback of a staking operation runs, and then
as the pool's answer to that operation says. -/
theorem C75_known_deposit_changes (cfg : Cfg) (w : World) (ev : Ev) :
    knownDeposited (step cfg w ev).c = knownDeposited w.c ∨
    ∃ i ext cb r, ev = .callback i ∧ w.pend[i]? = some ⟨ext, some cb, .done r⟩ ∧
      knownDeposited (step cfg w ev).c = recorded (knownDeposited w.c) cb r := by
  have hcase := step_case cfg w ev
  generalize step cfg w ev = w' at hcase
  cases hcase with
  | quiet ev w' h1 => rw [h1]; exact .inl rfl
  | owner who c c' eff h1 h2 h3 h4 hr =>
    left
    show knownDeposited c' = _
    cases hr with
    | select => rfl
    | unselect si g1 g2 g3 => simp [knownDeposited, g1, g3]
    | op c si ext cb g1 => simp [knownDeposited, g1]
    | poll => rfl
    | transfer => rfl
    | addKey => rfl
  | foundation who c c' eff h1 h2 h3 hr =>
    left
    show knownDeposited c' = _
    cases hr with
    | terminate => rfl
    | prepareUnstake si u g1 => simp [knownDeposited, g1]
    | prepareWithdraw si u g1 => simp [knownDeposited, g1]
    | withdraw => rfl
  | execNone i ext r hi =>
    left
    have := (runExt_facts cfg w ⟨ext, none, .sent⟩ r).1
    simp only [this]
  | execSome i ext cb r hi =>
    left
    have := (runExt_facts cfg w ⟨ext, some cb, .sent⟩ r).1
    simp only [this]
  | callbackOk i ext cb r c' eff hi hr =>
    exact .inr ⟨i, ext, cb, r, rfl, hi, cbRel_known hr⟩
  | callbackPanic i ext cb r hi => exact .inl rfl

/-- **C75.** No answer is lost: whenever the callback of a staking operation runs, the answer is
recorded (answers are `u128`; a successful deposit must not overflow `u128`). -/
theorem C75_answer_recorded {cfg : Cfg} {a : NewArgs} {w : World} (h : Reachable cfg a w)
    {i : Nat} {ext : Ext} {cb : Callback} {r : PResult}
    (hi : w.pend[i]? = some ⟨ext, some cb, .done r⟩)
    (hu : ∀ n, r = .balance n → n < two128)
    (hdep : ∀ x, cb = .onDeposit x ∨ cb = .onDepositAndStake x → r ≠ .failed →
      knownDeposited w.c + x < two128) :
    knownDeposited (step cfg w (.callback i)).c = recorded (knownDeposited w.c) cb r := by
  have hS := reachable_sinv h
  have hmem := mem_of_getElem?' hi
  have hcoh : Coh w.c ext (some cb) := hS.coh _ hmem
  have hcase := step_case cfg w (.callback i)
  by_cases hq : recorded (knownDeposited w.c) cb r = knownDeposited w.c
  · rcases C75_known_deposit_changes cfg w (.callback i) with h1 | ⟨j, ext', cb', r', h1, h2, h3⟩
    · rw [h1, hq]
    · cases h1; rw [hi] at h2; cases h2; exact h3
  · have hop : ext.isPoolOp = true := by
      cases hcoh <;> first | rfl | (exact absurd rfl hq)
    have hview : cb.isView = true → ∃ n, r = .balance n ∧ n < two128 := by
      intro hv
      cases r with
      | balance n => exact ⟨n, rfl, hu n rfl⟩
      | failed | unit | bool | poll =>
        cases cb <;> first | (exact absurd rfl hq) | (cases hv)
    have hc26 := C26_returns_to_idle_partial h hi hop hview hdep
    have hopN : opN ⟨ext, some cb, .done r⟩ = 1 := by rw [opN_eq (c := w.c) hcoh]; rw [if_pos hop]
    obtain ⟨hrest, hbusy⟩ := op_last hS hi hopN
    obtain ⟨si, hs, hb⟩ := busyN_pos (c := w.c) (by omega)
    generalize step cfg w (.callback i) = w' at hcase hc26
    cases hcase with
    | quiet _ _ g1 g2 =>
      exfalso
      rcases hc26 with ⟨si', h1, h2, _⟩ | ⟨e', cb', _, _, _, h3⟩
      · rw [g1, hs] at h1; cases h1; rw [hb] at h2; cases h2
      · rw [g2] at h3
        have hm : (⟨ext, some cb, .done r⟩ : Pending) ∈ w.pend.eraseIdx i ++ [⟨e', some cb', .sent⟩] := by
          rw [← h3]; exact hmem
        rcases List.mem_append.mp hm with hm | hm
        · have := psum_mem_le opN hm
          omega
        · simp at hm
    | callbackOk _ ext' cb' r' c' eff hi' hr =>
      rw [hi] at hi'; cases hi'
      exact cbRel_known hr
    | callbackPanic _ ext' cb' r' hi' hp =>
      exfalso
      rcases hc26 with ⟨si', h1, h2, _⟩ | ⟨e', cb', _, _, _, h3⟩
      · rw [hs] at h1; cases h1; rw [hb] at h2; cases h2
      · have := congrArg List.length h3
        simp at this

/-- **C75.** With pools that keep their word, an idle lockup never knows more than the pools hold for
it, apart from what they lost to rounding. -/
theorem C75_known_deposit_backed {cfg : Cfg} {a : NewArgs} {w : World} (h : Reachable cfg a w)
    (hon : cfg.honestPools = true) (hidle : ∀ si, w.c.staking = some si → si.busy = false) :
    knownDeposited w.c ≤ w.held + w.loss :=
  known_backed (reachable_sinv h) (reachable_dinv h hon) hidle

/- A deposit, a refresh after a reward and a withdrawal. -/
example : knownDeposited demoStaked.c = 5000000000000000000000000 := by decide +kernel
/-- Refresh after a reward of 9. -/
def demoRefreshed : World := run demoCfg demoStaked
  [.poolReward 9, .call "owner" 0 (.owner .refreshStakingPoolBalance),
   .execute 0 (.balance 5000000000000000000000009)]
example : Reachable demoCfg demoArgs demoRefreshed := demoStaked_reachable.run _
example : demoRefreshed.pend[0]? = some ⟨.poolTotalBalance "pool", some .onTotalBalance,
    .done (.balance 5000000000000000000000009)⟩ := by decide +kernel
example : knownDeposited (step demoCfg demoRefreshed (.callback 0)).c =
    5000000000000000000000009 := by decide +kernel
example : ∀ si, demoStaked.c.staking = some si → si.busy = false := by
  intro si h
  have : demoStaked.c.staking = some ⟨"pool", false, 5000000000000000000000000⟩ := by decide +kernel
  rw [this] at h; cases h; rfl

/-! ## C76: the balance views -/

/-- **C76.** The balance views never panic (while the sum fits in `u128`) and report: everything the
lockup has; that minus the locked amount; the part of it that is on the account beyond the storage
reserve of 3.5 NEAR. -/
theorem C76_balance_views {cfg : Cfg} {a : NewArgs} {w : World} (h : Reachable cfg a w)
    (hv : VestingOk cfg (argVesting a)) (e : Env) (hnow : e.now < two64 - 1)
    (hr : ReleaseInRange w.c) (hsum : e.accountBalance + knownDeposited w.c < two128) :
    getBalance e w.c = .ok (e.accountBalance + knownDeposited w.c) ∧
    getOwnersBalance e w.c =
      .ok (e.accountBalance + knownDeposited w.c - specLocked w.c e.now) ∧
    getLiquidOwnersBalance e w.c =
      .ok (min (e.accountBalance + knownDeposited w.c - specLocked w.c e.now)
        (e.accountBalance - 35 * 10 ^ 23)) := by
  rw [← minBalanceForStorage_eq]
  have hl := C20_locked_amount_is_documented h hv e hnow hr
  have hs : addU128 e.accountBalance (knownDeposited w.c) =
      .ok (e.accountBalance + knownDeposited w.c) := addU128_ok.mpr ⟨hsum, rfl⟩
  refine ⟨hs, ?_, ?_⟩
  · simp only [getOwnersBalance, hs, hl, ok_bind]; rfl
  · simp only [getLiquidOwnersBalance, getOwnersBalance, hs, hl, ok_bind]; rfl

/-- **C76.** The owner can transfer exactly the amounts up to the liquid balance the view reports
(transfers enabled, no operation running, no termination). -/
theorem C76_liquid_is_transferable {e : Env} {s : Lockup} {l x : Nat} {r : AccountId}
    (hl : getLiquidOwnersBalance e s = .ok l) (h0 : e.attachedDeposit = 0)
    (ho : e.predecessor = s.owner) (hx : 0 < x ∧ x < two128) (hr : e.validAccountId r = true)
    (ht : ∃ t, s.info.transfers = .enabled t)
    (hidle : ∀ si, s.staking = some si → si.busy = false)
    (hterm : ∀ u st, s.vesting ≠ .terminating u st) :
    (∃ s' eff, exec e s (.owner (.transfer x r)) = .ok (s', eff)) ↔ x ≤ l := by
  have hterm' : s.vesting.isTerminating = false := by
    cases hv : s.vesting <;> simp [Vesting.isTerminating]
    exact hterm _ _ hv
  have hen : transfersEnabled s = true := by
    obtain ⟨t, ht⟩ := ht; simp [transfersEnabled, ht]
  constructor
  · rintro ⟨s', eff, h⟩
    simp only [exec, execOwner, transfer, bind_ok, require_ok, hl] at h
    obtain ⟨_, _, _, _, _, _, _, _, _, _, _, _, _, _, _, _, l', h7, _, h8, _⟩ := h
    cases h7; exact h8
  · intro hxl
    refine ⟨s, some ⟨.transfer r x, none⟩, ?_⟩
    simp only [exec, execOwner, transfer, bind_ok, notPayable_ok, assertOwner_ok, decodeU128_ok,
      require_ok, assertTransfersEnabled_ok, assertNoStakingOrIdle_ok, assertNoTermination_ok,
      pure_ok, exists_const]
    exact ⟨h0, hx.2, ho, hx.1, hr, hen, hidle, hterm', l, hl, hxl, trivial⟩

/-- **C76.** The deficit view says what the account lacks: a payment that takes place now takes the
unvested amount minus the deficit, it takes place exactly when that is positive, and it is the whole
unvested amount exactly when the view reports 0. -/
theorem C76_deficit_view {e : Env} {s : Lockup} {u : Nat} {r : AccountId}
    (hu : s.vesting = .terminating u .readyToWithdraw) (h0 : e.attachedDeposit = 0)
    (hf : s.foundation = some e.predecessor) (hr : e.validAccountId r = true) :
    terminatedUnvested s = u ∧ terminatedDeficit e s ≤ u ∧
    ((∃ s' eff, exec e s (.foundation (.terminationWithdraw r)) = .ok (s', eff)) ↔
      terminatedDeficit e s < u) ∧
    (∀ s' eff, exec e s (.foundation (.terminationWithdraw r)) = .ok (s', eff) →
      ∃ x, eff = some ⟨.transfer r x, some (.onWithdrawUnvested x r)⟩ ∧
        x + terminatedDeficit e s = u) := by
  have ht : terminatedUnvested s = u := by simp [terminatedUnvested, hu]
  have hm := minBalanceForStorage_eq
  have hd : terminatedDeficit e s = u - (e.accountBalance - minBalanceForStorage) := by
    simp only [terminatedDeficit, ht, getAccountBalance]
  refine ⟨ht, by omega, ⟨?_, ?_⟩, ?_⟩
  · rintro ⟨s', eff, h⟩
    obtain ⟨_, _, _, u', x, hu', rfl, hx, _⟩ := (C74_termination_withdraw_exact ..).mp h
    rw [hu] at hu'; cases hu'
    omega
  · intro h
    exact ⟨_, _, (C74_termination_withdraw_exact ..).mpr
      ⟨h0, hf, hr, u, _, hu, rfl, by omega, rfl, rfl⟩⟩
  · intro s' eff h
    obtain ⟨_, _, _, u', x, hu', rfl, hx, _, rfl⟩ := (C74_termination_withdraw_exact ..).mp h
    rw [hu] at hu'; cases hu'
    exact ⟨_, rfl, by omega⟩

/- Ten NEAR are to be returned, six are on the account: the deficit is 7.5, because 3.5 stay there. -/
def paySt : Lockup := { demoTerm5.c with vesting := .terminating tenNear .readyToWithdraw }
def payEnv : Env :=
  { mkEnv demoCfg demoTerm5 "fdn" 0 none with accountBalance := 6000000000000000000000000 }
example : paySt.vesting = .terminating tenNear .readyToWithdraw ∧ payEnv.attachedDeposit = 0 ∧
    paySt.foundation = some payEnv.predecessor ∧ payEnv.validAccountId "r" = true ∧
    terminatedDeficit payEnv paySt = 7500000000000000000000000 ∧
    (exec payEnv paySt (.foundation (.terminationWithdraw "r"))).toBool = true := by decide +kernel

example : ReleaseInRange demoStaked.c := by
  intro t r h1 h2
  have e1 : demoStaked.c.info.transfers = .enabled 1000 := by decide +kernel
  have e2 : demoStaked.c.info.releaseDuration = some 1000 := by decide +kernel
  rw [e1] at h1; rw [e2] at h2; cases h1; cases h2
  decide +kernel
/- After the release and the vesting have ended everything is the owner's, and what is on the account
beyond the reserve is liquid. -/
example : getLiquidOwnersBalance { mkEnv demoCfg demoStaked "x" 0 none with now := 4000 }
    demoStaked.c = .ok 1500000000000000000000000 := by decide +kernel
example : (exec { mkEnv demoCfg demoStaked "owner" 0 none with now := 4000 } demoStaked.c
    (.owner (.transfer 1500000000000000000000000 "x"))).toBool = true := by decide +kernel

/-! ## C77: the vested but locked amount -/

/-- **C77.** For a public schedule (presented to the view), during a termination and without vesting,
the view never panics and reports the locked amount minus the unvested amount. -/
theorem C77_locked_vested_partial {cfg : Cfg} {a : NewArgs} {w : World} (h : Reachable cfg a w)
    (hv : VestingOk cfg (argVesting a)) (e : Env) (vs : Schedule)
    (hvs : ∀ x, w.c.vesting = .schedule x → x = vs) (hnh : ∀ b, w.c.vesting ≠ .hash b) :
    ∃ l u r, getLockedAmount e w.c = .ok l ∧ getUnvestedAmount e w.c vs = .ok u ∧
      u = specUnvestedPart w.c e.now ∧
      getLockedVestedAmount e w.c vs = .ok r ∧ r + u = l := by
  have hg := (reachable_good h hv).1
  have hu : getUnvestedAmount e w.c vs = .ok (specUnvestedPart w.c e.now) := by
    unfold getUnvestedAmount specUnvestedPart
    cases hc : w.c.vesting with
    | none => rfl
    | hash b => exact absurd hc (hnh b)
    | terminating u st => rfl
    | schedule x =>
      have := hvs x hc; subst this
      obtain ⟨h1, h2, _⟩ := hg.sched x hc
      simp only
      rw [scheduleUnvested_eq hg.amt h1 h2, unvestedVal_spec]
  have hle : specUnvestedPart w.c e.now ≤ lockedVal w.c e.now := by
    have h1 := lockedUnvestedVal_le (now := e.now) hg
    rw [lockedUnvestedVal_spec] at h1
    unfold lockedVal
    cases w.c.info.transfers with
    | disabled p => simp only; omega
    | enabled t =>
      simp only
      split
      · rw [lockedUnvestedVal_spec]; omega
      · omega
  refine ⟨_, _, lockedVal w.c e.now - specUnvestedPart w.c e.now, getLockedAmount_eq hg, hu, rfl, ?_,
    by omega⟩
  simp only [getLockedVestedAmount, getLockedAmount_eq hg, hu, ok_bind]
  exact subU_ok.mpr ⟨hle, rfl⟩

/-- **C77, refuted for a private schedule.** The contract does not know the schedule, so its locked
amount ignores it: after the release has ended, the view panics for the right schedule while there
are unvested tokens. -/
theorem C77_private_view_panics_refuted :
    ∃ (cfg : Cfg) (a : NewArgs) (w : World) (e : Env) (vs : Schedule),
      Reachable cfg a w ∧ VestingOk cfg (argVesting a) ∧ vs.Valid ∧
      w.c.vesting = .hash (cfg.sha256 (ScheduleWithSalt.borsh ⟨vs, [1, 2, 3]⟩)) ∧ e.now = w.now ∧
      (∃ u, getUnvestedAmount e w.c vs = .ok u ∧ 0 < u) ∧
      (getLockedVestedAmount e w.c vs).toBool = false := by
  let w := run demoCfg (startOf privArgs) [.tick 600]
  refine ⟨demoCfg, privArgs, w, mkEnv demoCfg w "x" 0 none, privSalted.schedule,
    ⟨_, _, priv_started, rfl⟩, ?_, by decide +kernel, by decide +kernel, rfl,
    ⟨tenNear, by decide +kernel, by decide +kernel⟩, by decide +kernel⟩
  obtain ⟨_, _, _, hv, _⟩ := C24_private_schedule_not_covered
  exact hv

example : getLockedVestedAmount (mkEnv demoCfg demoStaked "x" 0 none) demoStaked.c
    ⟨100, 2000, 4000⟩ = .ok 0 := by decide +kernel
example : getLockedVestedAmount { mkEnv demoCfg demoStaked "x" 0 none with now := 2100 }
    demoStaked.c ⟨100, 2000, 4000⟩ = .ok 0 := by decide +kernel

/-! ## C78: initialization -/

/-- **C78.** `new` is accepted exactly when the account has no state, no deposit is attached, the
numbers are `u64`, the owner and the whitelist are valid account ids, the transfer poll (if any) is a
valid account id, and there is a foundation exactly when there is vesting, with a valid account id.
The state then holds exactly the arguments; the lockup amount is the balance of the account; no pool
is selected and nothing is terminated. -/
theorem C78_new_exact (e : Env) (initialized : Bool) (a : NewArgs) (c : Lockup) :
    new e initialized a = .ok c ↔
      e.attachedDeposit = 0 ∧ initialized = false ∧ a.lockupDuration < two64 ∧
      (∀ t, a.lockupTimestamp = some t → t < two64) ∧
      (∀ t, a.releaseDuration = some t → t < two64) ∧
      e.validAccountId a.owner = true ∧ e.validAccountId a.whitelist = true ∧
      (∀ t, a.transfers = .enabled t → t < two64) ∧
      (∀ p, a.transfers = .disabled p → e.validAccountId p = true) ∧
      (a.vesting = none ↔ a.foundation = none) ∧
      (∀ f, a.foundation = some f → e.validAccountId f = true) ∧
      (∀ vs, a.vesting = some (.schedule vs) →
        vs.start < two64 ∧ vs.cliff < two64 ∧ vs.finish < two64) ∧
      c = { owner := a.owner
            info :=
              { lockupAmount := e.accountBalance, terminationWithdrawn := 0,
                lockupDuration := a.lockupDuration, releaseDuration := a.releaseDuration,
                lockupTimestamp := a.lockupTimestamp, transfers := a.transfers }
            vesting := match a.vesting with
              | none => .none
              | some (.hash h) => .hash h
              | some (.schedule vs) => .schedule vs
            whitelist := a.whitelist
            staking := none
            foundation := a.foundation } := by
  have hopt : ∀ o : Option Nat, decodeOptU64 o = .ok () ↔ ∀ t, o = some t → t < two64 := by
    intro o; cases o <;> simp [decodeOptU64, pure_ok]
  have htr : checkTransfers e a.transfers = .ok () ↔
      (∀ t, a.transfers = .enabled t → t < two64) ∧
      (∀ p, a.transfers = .disabled p → e.validAccountId p = true) := by
    cases a.transfers <;> simp [checkTransfers]
  have hve : ∀ v, initVesting a.foundation a.vesting = .ok v ∧ checkFoundation e v a.foundation = .ok ()
      ↔ (a.vesting = none ↔ a.foundation = none) ∧
        (∀ f, a.foundation = some f → e.validAccountId f = true) ∧
        (∀ vs, a.vesting = some (.schedule vs) →
          vs.start < two64 ∧ vs.cliff < two64 ∧ vs.finish < two64) ∧
        v = (match a.vesting with
              | none => .none
              | some (.hash h) => .hash h
              | some (.schedule vs) => .schedule vs) := by
    intro v
    cases a.vesting with
    | none =>
      cases a.foundation with
      | none =>
        simp only [initVesting, checkFoundation, bind_ok, pure_ok, require_ok]
        constructor
        · rintro ⟨⟨_, _, rfl⟩, _⟩; simp
        · rintro ⟨_, _, _, rfl⟩; exact ⟨⟨(), trivial, rfl⟩, .inl rfl⟩
      | some f =>
        simp only [initVesting, bind_ok, require_ok]
        constructor
        · rintro ⟨⟨_, h, _⟩, _⟩; cases h
        · rintro ⟨h, _⟩; exact absurd (h.mp trivial) (by simp)
    | some x =>
      cases a.foundation with
      | none =>
        cases x with
        | hash b =>
          simp only [initVesting, checkFoundation, pure_ok, require_ok]
          constructor
          · rintro ⟨rfl, h | ⟨f, h, _⟩⟩ <;> cases h
          · rintro ⟨h, _⟩; exact absurd (h.mpr trivial) (by simp)
        | schedule vs =>
          simp only [initVesting, checkFoundation, bind_ok, pure_ok, require_ok]
          constructor
          · rintro ⟨⟨_, _, rfl⟩, h | ⟨f, h, _⟩⟩ <;> cases h
          · rintro ⟨h, _⟩; exact absurd (h.mpr trivial) (by simp)
      | some f =>
        cases x with
        | hash b =>
          simp only [initVesting, checkFoundation, pure_ok, require_ok]
          constructor
          · rintro ⟨rfl, h | ⟨g, h, hg⟩⟩
            · cases h
            · refine ⟨by simp, fun f' h' => by rw [h] at h'; cases h'; exact hg, by simp, rfl⟩
          · rintro ⟨_, h, _, rfl⟩; exact ⟨rfl, .inr ⟨f, rfl, h f rfl⟩⟩
        | schedule vs =>
          simp only [initVesting, checkFoundation, decodeSchedule, bind_ok, pure_ok, require_ok,
            decodeU64_ok, exists_const]
          constructor
          · rintro ⟨⟨h1, rfl⟩, h | ⟨g, h, hg⟩⟩
            · cases h
            · refine ⟨by simp, fun f' h' => by rw [h] at h'; cases h'; exact hg, ?_, rfl⟩
              rintro vs' h'; cases h'; exact h1
          · rintro ⟨_, h, h2, rfl⟩; exact ⟨⟨h2 vs rfl, rfl⟩, .inr ⟨f, rfl, h f rfl⟩⟩
  have hu : ∀ {x : R Unit}, (∃ u, x = .ok u) ↔ x = .ok () :=
    ⟨fun ⟨_, h⟩ => h, fun h => ⟨_, h⟩⟩
  simp only [new, bind_ok, require_ok, pure_ok, notPayable_ok, decodeU64_ok]
  constructor
  · rintro ⟨_, h1, _, h2, _, h3, _, h4, _, h5, _, h6, _, h7, _, h8, v, h9, _, h10, rfl⟩
    obtain ⟨g1, g2, g3, rfl⟩ := (hve v).mp ⟨h9, h10⟩
    exact ⟨h1, h2, h3, (hopt _).mp h4, (hopt _).mp h5, h6, h7, (htr.mp h8).1, (htr.mp h8).2, g1, g2,
      g3, rfl⟩
  · rintro ⟨h1, h2, h3, h4, h5, h6, h7, h8, h8', g1, g2, g3, rfl⟩
    obtain ⟨h9, h10⟩ := (hve _).mpr ⟨g1, g2, g3, rfl⟩
    exact ⟨(), h1, (), h2, (), h3, (), (hopt _).mpr h4, (), (hopt _).mpr h5, (), h6, (), h7, (),
      htr.mpr ⟨h8, h8'⟩, _, h9, (), h10, rfl⟩

example : ∃ c, new (initEnv demoCfg "deployer" tenNear 1000) false demoArgs = .ok c ∧
    c.info.lockupAmount = tenNear := ⟨_, rfl, rfl⟩

/-! ## C79: the owner can get the tokens back from the pool -/

/-- The owner unstakes everything. -/
def ownerUnstake (o : AccountId) (k : Nat) : List Ev :=
  [.call o 0 (.owner .unstakeAll), .execute k .unit, .callback k]

/-- The owner withdraws everything; the pool answers that `N` is unstaked and pays it out. -/
def ownerFetch (o : AccountId) (k N : Nat) : List Ev :=
  [.call o 0 (.owner .withdrawAllFromStakingPool), .execute k (.balance N), .callback k] ++
    (if N = 0 then [] else [.execute k .unit, .callback k, .arrive N])

/-- The owner asks for the total balance (the pool answers that nothing is left) and unselects the
pool. -/
def ownerLeave (o : AccountId) (k : Nat) : List Ev :=
  [.call o 0 (.owner .refreshStakingPoolBalance), .execute k (.balance 0), .callback k,
   .call o 0 (.owner .unselectStakingPool)]

/-- An accepted staking operation of the owner that attaches no tokens. -/
theorem step_ownerOp {cfg : Cfg} {w : World} {pool : AccountId} {known : Nat} {c : OwnerCall}
    {ext : Ext} {cb : Callback}
    (ho : w.c.owner ≠ cfg.self) (hs : w.c.staking = some ⟨pool, false, known⟩)
    (hterm : ∀ u st, w.c.vesting ≠ .terminating u st)
    (hp : poolPromise pool c = some ⟨ext, some cb⟩) (hc : ∀ p, poolPromise p c ≠ none)
    (ha : opAmount c = none) (hsp : opSpends c = 0) (hat : ext.attached = 0)
    (hq : effQueried (some ⟨ext, some cb⟩) = []) :
    step cfg w (.call w.c.owner 0 (.owner c)) =
      { w with c := { w.c with staking := some ⟨pool, true, known⟩ },
               pend := w.pend ++ [⟨ext, some cb, .sent⟩] } := by
  have hx : exec (mkEnv cfg w w.c.owner 0 none) w.c (.owner c) =
      .ok ({ w.c with staking := some ⟨pool, true, known⟩ }, some ⟨ext, some cb⟩) :=
    (C74_pool_calls_exact hc _ _ _ _).mpr ⟨rfl, rfl, by simp [ha], by simp [hsp], hterm, pool, known,
      hs, rfl, hp.symm⟩
  rw [step_call_ok ho hx (by show ext.attached ≤ _; omega)]
  have hnt : newFixed w.c.vesting w.c.vesting w.fixedUnvested = w.fixedUnvested :=
    newFixed_same (by cases hv : w.c.vesting <;> simp [Vesting.isTerminating])
  simp only [commit, effPending, effAttached, hat, hq, List.nil_append, Nat.add_zero, Nat.sub_zero]
  rw [hnt]

theorem run_ownerUnstake {cfg : Cfg} {w : World} {pool : AccountId} {known : Nat}
    (ho : w.c.owner ≠ cfg.self) (hs : w.c.staking = some ⟨pool, false, known⟩)
    (hterm : ∀ u st, w.c.vesting ≠ .terminating u st) :
    run cfg w (ownerUnstake w.c.owner w.pend.length) = w := by
  have h1 := step_ownerOp (c := .unstakeAll) ho hs hterm rfl (by intro p h; cases h) rfl rfl rfl rfl
  simp only [ownerUnstake, run]
  rw [h1]
  obtain ⟨⟨owner, info, vesting, wl, staking, fdn⟩, bal, now, pend, incoming, held, loss, paid, fx,
    qd, ap, pa, fk⟩ := w
  simp only at hs ho hterm ⊢
  subst hs
  rw [step_exec_last rfl]
  simp only [runExt]
  have hx : exec (mkEnv cfg ⟨⟨owner, info, vesting, wl, some ⟨pool, true, known⟩, fdn⟩, bal, now,
      pend, incoming, held, loss, paid, fx, qd, ap, pa, fk⟩ cfg.self 0 (some .unit))
      ⟨owner, info, vesting, wl, some ⟨pool, true, known⟩, fdn⟩ (.callback .onUnstakeAll) =
      .ok (⟨owner, info, vesting, wl, some ⟨pool, false, known⟩, fdn⟩, none) := by
    obtain ⟨e1, e2⟩ := env_self cfg ⟨⟨owner, info, vesting, wl, some ⟨pool, true, known⟩, fdn⟩, bal,
      now, pend, incoming, held, loss, paid, fx, qd, ap, pa, fk⟩ .unit
    simp only [exec, e1, ok_bind, execCallback, onStakeLike, e2]
    rfl
  rw [step_cb_last rfl hx (Nat.zero_le _)]
  have hnt : newFixed vesting vesting fx = fx :=
    newFixed_same (by cases hv : vesting <;> simp [Vesting.isTerminating])
  simp only [commit, effPending, effAttached, effQueried, List.nil_append, Nat.add_zero,
    Nat.sub_zero, List.append_nil, hnt]

theorem run_ownerFetch {cfg : Cfg} {w : World} {pool : AccountId} {known N : Nat}
    (ho : w.c.owner ≠ cfg.self) (hs : w.c.staking = some ⟨pool, false, known⟩)
    (hterm : ∀ u st, w.c.vesting ≠ .terminating u st) (hN : N < two128) (hheld : N ≤ w.held) :
    run cfg w (ownerFetch w.c.owner w.pend.length N) =
      { w with c := { w.c with staking := some ⟨pool, false, known - N⟩ }, bal := w.bal + N,
               held := w.held - N } := by
  have h1 := step_ownerOp (c := .withdrawAllFromStakingPool) ho hs hterm rfl
    (by intro p h; cases h) rfl rfl rfl rfl
  simp only [ownerFetch, List.cons_append, List.nil_append, run]
  rw [h1]
  obtain ⟨⟨owner, info, vesting, wl, staking, fdn⟩, bal, now, pend, incoming, held, loss, paid, fx,
    qd, ap, pa, fk⟩ := w
  simp only at hs ho hterm hheld ⊢
  subst hs
  rw [step_exec_last rfl]
  simp only [runExt]
  have hnt : newFixed vesting vesting fx = fx :=
    newFixed_same (by cases hv : vesting <;> simp [Vesting.isTerminating])
  obtain ⟨e1, e2⟩ := env_self cfg ⟨⟨owner, info, vesting, wl, some ⟨pool, true, known⟩, fdn⟩, bal,
    now, pend, incoming, held, loss, paid, fx, qd, ap, pa, fk⟩ (.balance N)
  have e3 := callbackBalance_run cfg ⟨⟨owner, info, vesting, wl, some ⟨pool, true, known⟩, fdn⟩, bal,
    now, pend, incoming, held, loss, paid, fx, qd, ap, pa, fk⟩ hN
  by_cases h0 : N = 0
  · have hx : exec (mkEnv cfg ⟨⟨owner, info, vesting, wl, some ⟨pool, true, known⟩, fdn⟩, bal, now,
        pend, incoming, held, loss, paid, fx, qd, ap, pa, fk⟩ cfg.self 0 (some (.balance N)))
        ⟨owner, info, vesting, wl, some ⟨pool, true, known⟩, fdn⟩
        (.callback .onUnstakedToWithdrawByOwner) =
        .ok (⟨owner, info, vesting, wl, some ⟨pool, false, known⟩, fdn⟩, none) := by
      simp only [exec, e1, ok_bind, execCallback, onUnstakedToWithdrawByOwner, e3, e2]
      rw [if_neg (by omega)]
      rfl
    rw [step_cb_last rfl hx (Nat.zero_le _), if_pos h0]
    subst h0
    simp only [run, commit, effPending, effAttached, effQueried, List.nil_append, Nat.add_zero,
      Nat.sub_zero, List.append_nil, hnt]
  · have hx : exec (mkEnv cfg ⟨⟨owner, info, vesting, wl, some ⟨pool, true, known⟩, fdn⟩, bal, now,
        pend, incoming, held, loss, paid, fx, qd, ap, pa, fk⟩ cfg.self 0 (some (.balance N)))
        ⟨owner, info, vesting, wl, some ⟨pool, true, known⟩, fdn⟩
        (.callback .onUnstakedToWithdrawByOwner) =
        .ok (⟨owner, info, vesting, wl, some ⟨pool, true, known⟩, fdn⟩,
          some ⟨.poolWithdraw pool N, some (.onWithdraw N)⟩) := by
      simp only [exec, e1, ok_bind, execCallback, onUnstakedToWithdrawByOwner, e3, e2]
      rw [if_pos (by omega)]
      rfl
    rw [step_cb_last rfl hx (Nat.zero_le _), if_neg h0]
    simp only [run, commit, effPending, effAttached, Ext.attached, effQueried, List.nil_append,
      Nat.add_zero, Nat.sub_zero, hnt]
    rw [step_exec_last rfl]
    simp only [runExt, reduceCtorEq, if_false, if_pos hheld]
    have hy : exec (mkEnv cfg ⟨⟨owner, info, vesting, wl, some ⟨pool, true, known⟩, fdn⟩, bal, now,
        pend, incoming + N, held - N, loss, paid, fx, qd, ap, pa, fk⟩ cfg.self 0 (some .unit))
        ⟨owner, info, vesting, wl, some ⟨pool, true, known⟩, fdn⟩ (.callback (.onWithdraw N)) =
        .ok (⟨owner, info, vesting, wl, some ⟨pool, false, known - N⟩, fdn⟩, none) := by
      obtain ⟨g1, g2⟩ := env_self cfg ⟨⟨owner, info, vesting, wl, some ⟨pool, true, known⟩, fdn⟩, bal,
        now, pend, incoming + N, held - N, loss, paid, fx, qd, ap, pa, fk⟩ .unit
      simp only [exec, g1, ok_bind, execCallback, onWithdraw, g2]
      rfl
    rw [step_cb_last rfl hy (Nat.zero_le _)]
    simp only [commit, effPending, effAttached, effQueried, List.nil_append, Nat.add_zero,
      Nat.sub_zero, List.append_nil, step, hnt]
    rw [if_pos (by omega)]
    simp only [Nat.add_sub_cancel]

theorem run_ownerLeave {cfg : Cfg} {w : World} {pool : AccountId} {known : Nat}
    (ho : w.c.owner ≠ cfg.self) (hs : w.c.staking = some ⟨pool, false, known⟩)
    (hterm : ∀ u st, w.c.vesting ≠ .terminating u st) :
    run cfg w (ownerLeave w.c.owner w.pend.length) =
      { w with c := { w.c with staking := none } } := by
  have h1 := step_ownerOp (c := .refreshStakingPoolBalance) ho hs hterm rfl
    (by intro p h; cases h) rfl rfl rfl rfl
  simp only [ownerLeave, run]
  rw [h1]
  obtain ⟨⟨owner, info, vesting, wl, staking, fdn⟩, bal, now, pend, incoming, held, loss, paid, fx,
    qd, ap, pa, fk⟩ := w
  simp only at hs ho hterm ⊢
  subst hs
  rw [step_exec_last rfl]
  have hnt : newFixed vesting vesting fx = fx :=
    newFixed_same (by cases hv : vesting <;> simp [Vesting.isTerminating])
  simp only [runExt, Nat.not_lt_zero, and_false, if_false]
  have hx : exec (mkEnv cfg ⟨⟨owner, info, vesting, wl, some ⟨pool, true, known⟩, fdn⟩, bal, now,
      pend, incoming, held, loss, paid, fx, qd, ap, pa, fk⟩ cfg.self 0 (some (.balance 0)))
      ⟨owner, info, vesting, wl, some ⟨pool, true, known⟩, fdn⟩ (.callback .onTotalBalance) =
      .ok (⟨owner, info, vesting, wl, some ⟨pool, false, 0⟩, fdn⟩, none) := by
    obtain ⟨e1, e2⟩ := env_self cfg ⟨⟨owner, info, vesting, wl, some ⟨pool, true, known⟩, fdn⟩, bal,
      now, pend, incoming, held, loss, paid, fx, qd, ap, pa, fk⟩ (.balance 0)
    have e3 := callbackBalance_run cfg ⟨⟨owner, info, vesting, wl, some ⟨pool, true, known⟩, fdn⟩,
      bal, now, pend, incoming, held, loss, paid, fx, qd, ap, pa, fk⟩ two128_pos
    simp only [exec, e1, ok_bind, execCallback, onTotalBalance, e3, e2]
    rfl
  rw [step_cb_last rfl hx (Nat.zero_le _)]
  simp only [commit, effPending, effAttached, effQueried, List.nil_append, Nat.add_zero,
    Nat.sub_zero, List.append_nil, hnt]
  have hy : exec (mkEnv cfg ⟨⟨owner, info, vesting, wl, some ⟨pool, false, 0⟩, fdn⟩, bal, now,
      pend, incoming, held, loss, paid, fx, qd, ap, pa, fk⟩ owner 0 none)
      ⟨owner, info, vesting, wl, some ⟨pool, false, 0⟩, fdn⟩ (.owner .unselectStakingPool) =
      .ok (⟨owner, info, vesting, wl, none, fdn⟩, none) :=
    (C74_unselect_exact _ _ _ _).mpr ⟨rfl, rfl, ⟨pool, rfl⟩, hterm, rfl, rfl⟩
  rw [step_call_ok ho hy (Nat.zero_le _)]
  simp only [commit, effPending, effAttached, effQueried, List.nil_append, Nat.add_zero,
    Nat.sub_zero, List.append_nil, hnt]

/-- **C79.** From every idle state with a selected pool and no termination, the owner alone can bring
back everything the pool holds for the lockup: unstake all, withdraw all, refresh, unselect, with a
pool that answers truthfully. Afterwards the tokens are on the account, no pool is selected, nothing
else has changed, and receipts already in flight are untouched. -/
theorem C79_owner_recovers_everything {cfg : Cfg} {w : World} {pool : AccountId} {known : Nat}
    (ho : w.c.owner ≠ cfg.self) (hs : w.c.staking = some ⟨pool, false, known⟩)
    (hterm : ∀ u st, w.c.vesting ≠ .terminating u st) (hN : w.held < two128) :
    run cfg w (ownerUnstake w.c.owner w.pend.length ++
        ownerFetch w.c.owner w.pend.length w.held ++ ownerLeave w.c.owner w.pend.length) =
      { w with c := { w.c with staking := none }, bal := w.bal + w.held, held := 0 } := by
  rw [run_append, run_append, run_ownerUnstake ho hs hterm, run_ownerFetch ho hs hterm hN (Nat.le_refl _)]
  have := run_ownerLeave (cfg := cfg) (w := { w with
    c := { w.c with staking := some ⟨pool, false, known - w.held⟩ }, bal := w.bal + w.held,
    held := w.held - w.held }) ho rfl hterm
  simp only at this
  rw [this, Nat.sub_self]

/-- **C79.** A partial recovery: the pool reports `N` unstaked tokens and pays them; they arrive, the
known deposit falls by `N` and the lockup is idle again. -/
theorem C79_owner_withdraws {cfg : Cfg} {w : World} {pool : AccountId} {known N : Nat}
    (ho : w.c.owner ≠ cfg.self) (hs : w.c.staking = some ⟨pool, false, known⟩)
    (hterm : ∀ u st, w.c.vesting ≠ .terminating u st) (hN : N < two128) (hheld : N ≤ w.held) :
    run cfg w (ownerFetch w.c.owner w.pend.length N) =
      { w with c := { w.c with staking := some ⟨pool, false, known - N⟩ }, bal := w.bal + N,
               held := w.held - N } :=
  run_ownerFetch ho hs hterm hN hheld

example : demoStaked.c.staking = some ⟨"pool", false, 5000000000000000000000000⟩ ∧
    demoStaked.c.owner ≠ demoCfg.self ∧ demoStaked.c.vesting.isTerminating = false ∧
    demoStaked.held = 5000000000000000000000000 := by decide +kernel
example : (run demoCfg demoStaked (ownerUnstake "owner" 0 ++
    ownerFetch "owner" 0 5000000000000000000000000 ++ ownerLeave "owner" 0)).bal = tenNear := by
  decide +kernel

end Verif.Lockup
