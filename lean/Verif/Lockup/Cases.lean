import Verif.Lockup.Arith

/-! # What a successful call did: relational description of every method -/

namespace Verif.Lockup

open Verif

/-- Promise results that count as success. -/
def PResult.isOk : PResult → Bool
  | .failed => false
  | _ => true

@[simp] theorem notPayable_ok {e : Env} {u : Unit} :
    notPayable e = .ok u ↔ e.attachedDeposit = 0 := by simp [notPayable]
@[simp] theorem assertOwner_ok {e : Env} {s : Lockup} {u : Unit} :
    assertOwner e s = .ok u ↔ e.predecessor = s.owner := by simp [assertOwner]
@[simp] theorem assertSelf_ok {e : Env} {u : Unit} :
    assertSelf e = .ok u ↔ e.predecessor = e.self := by simp [assertSelf]
@[simp] theorem assertNoTermination_ok {s : Lockup} {u : Unit} :
    assertNoTermination s = .ok u ↔ s.vesting.isTerminating = false := by
  simp [assertNoTermination]
@[simp] theorem assertNotSelected_ok {s : Lockup} {u : Unit} :
    assertNotSelected s = .ok u ↔ s.staking = none := by simp [assertNotSelected]
@[simp] theorem assertTransfersEnabled_ok {s : Lockup} {u : Unit} :
    assertTransfersEnabled s = .ok u ↔ transfersEnabled s = true := by
  simp [assertTransfersEnabled]
@[simp] theorem assertTransfersDisabled_ok {s : Lockup} {u : Unit} :
    assertTransfersDisabled s = .ok u ↔ transfersEnabled s = false := by
  simp [assertTransfersDisabled]
@[simp] theorem decodeU128_ok {n : Nat} {u : Unit} : decodeU128 n = .ok u ↔ n < two128 := by
  simp [decodeU128]
@[simp] theorem decodeU64_ok {n : Nat} {u : Unit} : decodeU64 n = .ok u ↔ n < two64 := by
  simp [decodeU64]

@[simp] theorem assertIdle_ok {s : Lockup} {si : StakingInfo} :
    assertIdle s = .ok si ↔ s.staking = some si ∧ si.busy = false := by
  unfold assertIdle
  cases h : s.staking with
  | none => simp [throw_ok]
  | some x =>
    simp only [bind_ok, require_ok, pure_ok]
    constructor
    · rintro ⟨_, h1, rfl⟩; exact ⟨rfl, h1⟩
    · rintro ⟨h1, h2⟩; cases h1; exact ⟨(), h2, rfl⟩

@[simp] theorem assertNoStakingOrIdle_ok {s : Lockup} {u : Unit} :
    assertNoStakingOrIdle s = .ok u ↔ ∀ si, s.staking = some si → si.busy = false := by
  unfold assertNoStakingOrIdle
  cases h : s.staking with
  | none => simp [pure_ok]
  | some x => simp

@[simp] theorem selected_ok {s : Lockup} {si : StakingInfo} :
    selected s = .ok si ↔ s.staking = some si := by
  unfold selected
  cases h : s.staking with
  | none => simp [throw_ok]
  | some x => simp [pure_ok]

@[simp] theorem setBusy_ok {s s' : Lockup} {b : Bool} :
    setBusy s b = .ok s' ↔
      ∃ si, s.staking = some si ∧ s' = { s with staking := some ⟨si.pool, b, si.deposit⟩ } := by
  unfold setBusy
  cases h : s.staking with
  | none => simp [throw_ok]
  | some x =>
    simp only [pure_ok, Option.some.injEq, exists_eq_left']
    exact eq_comm

@[simp] theorem setTermination_ok {s s' : Lockup} {st : TStatus} :
    setTermination s st = .ok s' ↔
      ∃ u old, s.vesting = .terminating u old ∧ s' = { s with vesting := .terminating u st } := by
  unfold setTermination
  cases h : s.vesting with
  | terminating u old =>
    simp only [pure_ok, Vesting.terminating.injEq]
    constructor
    · rintro rfl; exact ⟨u, old, ⟨rfl, rfl⟩, rfl⟩
    · rintro ⟨_, _, ⟨rfl, rfl⟩, rfl⟩; rfl
  | _ => simp [throw_ok]

@[simp] theorem assertFoundation_ok {e : Env} {s : Lockup} {u : Unit} :
    assertFoundation e s = .ok u ↔ s.foundation = some e.predecessor := by
  unfold assertFoundation
  cases h : s.foundation with
  | none => simp [throw_ok]
  | some f =>
    simp only [require_ok, Option.some.injEq]
    exact eq_comm

@[simp] theorem isPromiseSuccess_ok {e : Env} {b : Bool} :
    isPromiseSuccess e = .ok b ↔ ∃ r, e.result = some r ∧ b = r.isOk := by
  unfold isPromiseSuccess
  cases h : e.result with
  | none => simp [throw_ok]
  | some r =>
    have : (∃ r', some r = some r' ∧ b = r'.isOk) ↔ r.isOk = b := by
      simp only [Option.some.injEq, exists_eq_left']; exact eq_comm
    rw [this]
    cases r <;> simp only [pure_ok, PResult.isOk]

@[simp] theorem callbackBool_ok {e : Env} {b : Bool} :
    callbackBool e = .ok b ↔ e.result = some (.bool b) := by
  unfold callbackBool
  cases h : e.result with
  | none => simp [throw_ok]
  | some r => cases r <;> simp [pure_ok, throw_ok]

@[simp] theorem callbackBalance_ok {e : Env} {n : Nat} :
    callbackBalance e = .ok n ↔ e.result = some (.balance n) ∧ n < two128 := by
  unfold callbackBalance
  cases h : e.result with
  | none => simp [throw_ok]
  | some r =>
    cases r with
    | balance m =>
      simp only [bind_ok, pure_ok, decodeU128_ok, Option.some.injEq, PResult.balance.injEq]
      constructor
      · rintro ⟨_, h1, rfl⟩; exact ⟨rfl, h1⟩
      · rintro ⟨rfl, h1⟩; exact ⟨(), h1, rfl⟩
    | _ => simp [throw_ok]

theorem callbackPoll_ok {e : Env} {r : Option Nat} (h : callbackPoll e = .ok r) :
    e.result = some (.poll r) ∧ ∀ t, r = some t → t < two64 := by
  unfold callbackPoll at h
  cases he : e.result with
  | none => simp [he, throw_ok] at h
  | some x =>
    rw [he] at h
    cases x <;> simp only [throw_ok, bind_ok, pure_ok] at h
    rename_i m
    obtain ⟨_, h1, rfl⟩ := h
    refine ⟨rfl, ?_⟩
    rintro t rfl
    simpa [decodeOptU64] using h1

/-- Receipts and callbacks of the owner's staking operations, with the balance `b` net of the
storage reserve. -/
inductive OpShape (b : Nat) (pool : AccountId) : Ext → Callback → Prop
  | deposit (a : Nat) : 0 < a → a ≤ b → OpShape b pool (.poolDeposit pool a) (.onDeposit a)
  | depositAndStake (a : Nat) : 0 < a → a ≤ b →
      OpShape b pool (.poolDepositAndStake pool a) (.onDepositAndStake a)
  | refresh : OpShape b pool (.poolTotalBalance pool) .onTotalBalance
  | withdraw (a : Nat) : 0 < a → OpShape b pool (.poolWithdraw pool a) (.onWithdraw a)
  | withdrawAll : OpShape b pool (.poolUnstakedBalance pool) .onUnstakedToWithdrawByOwner
  | stake (a : Nat) : 0 < a → OpShape b pool (.poolStake pool a) (.onStake a)
  | unstake (a : Nat) : 0 < a → OpShape b pool (.poolUnstake pool a) (.onUnstake a)
  | unstakeAll : OpShape b pool (.poolUnstakeAll pool) .onUnstakeAll

/-- Effects of a successful owner call. -/
inductive OwnerRel (e : Env) (s : Lockup) : OwnerCall → Lockup → Option Eff → Prop
  | select (p : AccountId) : e.validAccountId p = true → s.staking = none →
      OwnerRel e s (.selectStakingPool p) s
        (some ⟨.isWhitelisted s.whitelist p, some (.onWhitelist p)⟩)
  | unselect (si : StakingInfo) : s.staking = some si → si.busy = false → si.deposit = 0 →
      OwnerRel e s .unselectStakingPool { s with staking := none } none
  | op (c : OwnerCall) (si : StakingInfo) (ext : Ext) (cb : Callback) :
      s.staking = some si → si.busy = false → OpShape (getAccountBalance e) si.pool ext cb →
      (∀ a r, c ≠ .transfer a r) → (∀ k, c ≠ .addFullAccessKey k) →
      OwnerRel e s c { s with staking := some ⟨si.pool, true, si.deposit⟩ } (some ⟨ext, some cb⟩)
  | poll (p : AccountId) : s.info.transfers = .disabled p →
      OwnerRel e s .checkTransfersVote s (some ⟨.getResult p, some .onPollResult⟩)
  | transfer (a : Nat) (r : AccountId) (l : Nat) : 0 < a → transfersEnabled s = true →
      (∀ si, s.staking = some si → si.busy = false) →
      getLiquidOwnersBalance e s = .ok l → a ≤ l →
      OwnerRel e s (.transfer a r) s (some ⟨.transfer r a, none⟩)
  | addKey (k : PublicKey) : transfersEnabled s = true →
      (∀ si, s.staking = some si → si.busy = false) → getLockedAmount e s = .ok 0 →
      OwnerRel e s (.addFullAccessKey k) s (some ⟨.addFullAccessKey k, none⟩)

theorem poolOp_ok {s s' : Lockup} {mk : AccountId → Eff} {eff : Option Eff} :
    poolOp s mk = .ok (s', eff) ↔ ∃ si, s.staking = some si ∧ si.busy = false ∧
      s.vesting.isTerminating = false ∧
      s' = { s with staking := some ⟨si.pool, true, si.deposit⟩ } ∧ eff = some (mk si.pool) := by
  simp only [poolOp, bind_ok, assertIdle_ok, assertNoTermination_ok, setBusy_ok, pure_ok,
    Prod.mk.injEq]
  constructor
  · rintro ⟨si, ⟨h1, h2⟩, _, h3, s1, ⟨si', h4, rfl⟩, rfl, rfl⟩
    rw [h1] at h4; cases h4
    exact ⟨si, h1, h2, h3, rfl, rfl⟩
  · rintro ⟨si, h1, h2, h3, rfl, rfl⟩
    exact ⟨si, ⟨h1, h2⟩, (), h3, _, ⟨si, h1, rfl⟩, rfl, rfl⟩

theorem execOwner_rel {e : Env} {s s' : Lockup} {c : OwnerCall} {eff : Option Eff}
    (h : execOwner e s c = .ok (s', eff)) :
    e.attachedDeposit = 0 ∧ e.predecessor = s.owner ∧ s.vesting.isTerminating = false ∧
      OwnerRel e s c s' eff := by
  cases c with
  | selectStakingPool p =>
    simp only [execOwner, selectStakingPool, bind_ok, notPayable_ok, assertOwner_ok, require_ok,
      assertNotSelected_ok, assertNoTermination_ok, pure_ok, Prod.mk.injEq] at h
    obtain ⟨_, h0, _, h1, _, h2, _, h3, _, h4, rfl, rfl⟩ := h
    exact ⟨h0, h1, h4, .select p h2 h3⟩
  | unselectStakingPool =>
    simp only [execOwner, unselectStakingPool, bind_ok, notPayable_ok, assertOwner_ok, require_ok,
      assertIdle_ok, assertNoTermination_ok, pure_ok, Prod.mk.injEq] at h
    obtain ⟨_, h0, _, h1, si, ⟨h2, h3⟩, _, h4, _, h5, rfl, rfl⟩ := h
    exact ⟨h0, h1, h4, .unselect si h2 h3 h5⟩
  | depositToStakingPool a =>
    simp only [execOwner, depositToStakingPool, bind_ok, notPayable_ok, assertOwner_ok,
      decodeU128_ok, require_ok, assertIdle_ok, assertNoTermination_ok, setBusy_ok, pure_ok,
      Prod.mk.injEq] at h
    obtain ⟨_, h0, _, _, _, h1, _, h2, si, ⟨h3, h4⟩, _, h5, _, h6, s1, ⟨si', h7, rfl⟩, rfl, rfl⟩ := h
    rw [h3] at h7; cases h7
    exact ⟨h0, h1, h5, .op _ si _ _ h3 h4 (.deposit a h2 h6) (by simp) (by simp)⟩
  | depositAndStake a =>
    simp only [execOwner, depositAndStake, bind_ok, notPayable_ok, assertOwner_ok,
      decodeU128_ok, require_ok, assertIdle_ok, assertNoTermination_ok, setBusy_ok, pure_ok,
      Prod.mk.injEq] at h
    obtain ⟨_, h0, _, _, _, h1, _, h2, si, ⟨h3, h4⟩, _, h5, _, h6, s1, ⟨si', h7, rfl⟩, rfl, rfl⟩ := h
    rw [h3] at h7; cases h7
    exact ⟨h0, h1, h5, .op _ si _ _ h3 h4 (.depositAndStake a h2 h6) (by simp) (by simp)⟩
  | refreshStakingPoolBalance =>
    simp only [execOwner, refreshStakingPoolBalance, bind_ok, notPayable_ok, assertOwner_ok,
      poolOp_ok] at h
    obtain ⟨_, h0, _, h1, si, h2, h3, h4, rfl, rfl⟩ := h
    exact ⟨h0, h1, h4, .op _ si _ _ h2 h3 .refresh (by simp) (by simp)⟩
  | withdrawFromStakingPool a =>
    simp only [execOwner, withdrawFromStakingPool, bind_ok, notPayable_ok, assertOwner_ok,
      decodeU128_ok, require_ok, poolOp_ok] at h
    obtain ⟨_, h0, _, _, _, h1, _, h5, si, h2, h3, h4, rfl, rfl⟩ := h
    exact ⟨h0, h1, h4, .op _ si _ _ h2 h3 (.withdraw a h5) (by simp) (by simp)⟩
  | withdrawAllFromStakingPool =>
    simp only [execOwner, withdrawAllFromStakingPool, bind_ok, notPayable_ok, assertOwner_ok,
      poolOp_ok] at h
    obtain ⟨_, h0, _, h1, si, h2, h3, h4, rfl, rfl⟩ := h
    exact ⟨h0, h1, h4, .op _ si _ _ h2 h3 .withdrawAll (by simp) (by simp)⟩
  | stake a =>
    simp only [execOwner, stake, bind_ok, notPayable_ok, assertOwner_ok,
      decodeU128_ok, require_ok, poolOp_ok] at h
    obtain ⟨_, h0, _, _, _, h1, _, h5, si, h2, h3, h4, rfl, rfl⟩ := h
    exact ⟨h0, h1, h4, .op _ si _ _ h2 h3 (.stake a h5) (by simp) (by simp)⟩
  | unstake a =>
    simp only [execOwner, unstake, bind_ok, notPayable_ok, assertOwner_ok,
      decodeU128_ok, require_ok, poolOp_ok] at h
    obtain ⟨_, h0, _, _, _, h1, _, h5, si, h2, h3, h4, rfl, rfl⟩ := h
    exact ⟨h0, h1, h4, .op _ si _ _ h2 h3 (.unstake a h5) (by simp) (by simp)⟩
  | unstakeAll =>
    simp only [execOwner, unstakeAll, bind_ok, notPayable_ok, assertOwner_ok, poolOp_ok] at h
    obtain ⟨_, h0, _, h1, si, h2, h3, h4, rfl, rfl⟩ := h
    exact ⟨h0, h1, h4, .op _ si _ _ h2 h3 .unstakeAll (by simp) (by simp)⟩
  | checkTransfersVote =>
    simp only [execOwner, checkTransfersVote, bind_ok, notPayable_ok, assertOwner_ok] at h
    obtain ⟨_, h0, _, h1, h2⟩ := h
    cases ht : s.info.transfers with
    | enabled t => simp [ht, throw_ok] at h2
    | disabled p =>
      simp only [ht, bind_ok, assertNoTermination_ok, pure_ok, Prod.mk.injEq] at h2
      obtain ⟨_, h3, rfl, rfl⟩ := h2
      exact ⟨h0, h1, h3, .poll p ht⟩
  | transfer a r =>
    simp only [execOwner, transfer, bind_ok, notPayable_ok, assertOwner_ok,
      decodeU128_ok, require_ok, assertTransfersEnabled_ok, assertNoStakingOrIdle_ok,
      assertNoTermination_ok, pure_ok, Prod.mk.injEq] at h
    obtain ⟨_, h0, _, _, _, h1, _, h2, _, h3, _, h4, _, h5, _, h6, l, h7, _, h8, rfl, rfl⟩ := h
    exact ⟨h0, h1, h6, .transfer a r l h2 h4 h5 h7 h8⟩
  | addFullAccessKey k =>
    simp only [execOwner, addFullAccessKey, bind_ok, notPayable_ok, assertOwner_ok,
      require_ok, assertTransfersEnabled_ok, assertNoStakingOrIdle_ok,
      assertNoTermination_ok, pure_ok, Prod.mk.injEq] at h
    obtain ⟨_, h0, _, h1, _, h2, _, h3, _, h4, l, h5, _, rfl, rfl, rfl⟩ := h
    exact ⟨h0, h1, h4, .addKey k h2 h3 h5⟩

/-- Effects of a successful foundation call. -/
inductive FoundationRel (e : Env) (s : Lockup) : FoundationCall → Lockup → Option Eff → Prop
  | terminate (arg : Option ScheduleWithSalt) (vs : Schedule) (u : Nat) (st : TStatus) :
      assertVesting e s arg = .ok vs →
      vs.start < two64 ∧ vs.cliff < two64 ∧ vs.finish < two64 →
      getUnvestedAmount e s vs = .ok u → 0 < u →
      st = (if 0 < u - getAccountBalance e ∧ s.staking.isSome = true then
        TStatus.terminatedWithDeficit else TStatus.readyToWithdraw) →
      FoundationRel e s (.terminateVesting arg) { s with vesting := .terminating u st } none
  | prepareUnstake (si : StakingInfo) (u : Nat) : s.staking = some si → si.busy = false →
      s.vesting = .terminating u .terminatedWithDeficit →
      FoundationRel e s .terminationPrepareToWithdraw
        { s with vesting := .terminating u .unstakingInProgress,
                 staking := some ⟨si.pool, true, si.deposit⟩ }
        (some ⟨.poolStakedBalance si.pool, some .onStakedToUnstake⟩)
  | prepareWithdraw (si : StakingInfo) (u : Nat) : s.staking = some si → si.busy = false →
      s.vesting = .terminating u .everythingUnstaked →
      FoundationRel e s .terminationPrepareToWithdraw
        { s with vesting := .terminating u .withdrawingFromPool,
                 staking := some ⟨si.pool, true, si.deposit⟩ }
        (some ⟨.poolUnstakedBalance si.pool, some .onUnstakedToWithdraw⟩)
  | withdraw (r : AccountId) (u : Nat) : s.vesting = .terminating u .readyToWithdraw →
      e.validAccountId r = true → 0 < min u (getAccountBalance e) →
      FoundationRel e s (.terminationWithdraw r)
        { s with vesting := .terminating u .withdrawingFromAccount }
        (some ⟨.transfer r (min u (getAccountBalance e)),
          some (.onWithdrawUnvested (min u (getAccountBalance e)) r)⟩)

theorem terminationStatus_some {s : Lockup} {st : TStatus} :
    terminationStatus s = some st ↔ ∃ u, s.vesting = .terminating u st := by
  unfold terminationStatus
  cases s.vesting <;> simp

theorem execFoundation_rel {e : Env} {s s' : Lockup} {c : FoundationCall} {eff : Option Eff}
    (h : execFoundation e s c = .ok (s', eff)) :
    e.attachedDeposit = 0 ∧ s.foundation = some e.predecessor ∧ FoundationRel e s c s' eff := by
  cases c with
  | terminateVesting arg =>
    simp only [execFoundation, terminateVesting, decodeSchedule, bind_ok, notPayable_ok,
      assertFoundation_ok, decodeU64_ok, require_ok, pure_ok, Prod.mk.injEq] at h
    obtain ⟨_, h0, _, h1, vs, h2, _, ⟨_, h3a, _, h3b, h3⟩, u, h4, _, h5, rfl, rfl⟩ := h
    exact ⟨h0, h1, .terminate arg vs u _ h2 ⟨h3a, h3b, h3⟩ h4 h5 rfl⟩
  | terminationPrepareToWithdraw =>
    simp only [execFoundation, terminationPrepare, bind_ok, notPayable_ok, assertFoundation_ok,
      assertIdle_ok] at h
    obtain ⟨_, h0, _, h1, si, ⟨h2, h3⟩, h4⟩ := h
    refine ⟨h0, h1, ?_⟩
    cases hs : terminationStatus s with
    | none => simp [hs, throw_ok] at h4
    | some st =>
      obtain ⟨u, hv⟩ := terminationStatus_some.mp hs
      cases st <;> simp only [hs, throw_ok] at h4
      · simp only [bind_ok, setTermination_ok, setBusy_ok, pure_ok, Prod.mk.injEq] at h4
        obtain ⟨s1, ⟨u', old, hv', rfl⟩, s2, ⟨si', hs', rfl⟩, rfl, rfl⟩ := h4
        rw [hv] at hv'; cases hv'
        simp only at hs'
        rw [h2] at hs'; cases hs'
        exact .prepareUnstake si u h2 h3 hv
      · simp only [bind_ok, setTermination_ok, setBusy_ok, pure_ok, Prod.mk.injEq] at h4
        obtain ⟨s1, ⟨u', old, hv', rfl⟩, s2, ⟨si', hs', rfl⟩, rfl, rfl⟩ := h4
        rw [hv] at hv'; cases hv'
        simp only at hs'
        rw [h2] at hs'; cases hs'
        exact .prepareWithdraw si u h2 h3 hv
  | terminationWithdraw r =>
    simp only [execFoundation, terminationWithdraw, bind_ok, notPayable_ok, assertFoundation_ok,
      require_ok, terminationStatus_some, setTermination_ok, pure_ok, Prod.mk.injEq] at h
    obtain ⟨_, h0, _, h1, _, h2, _, ⟨u, hv⟩, _, h4, s1, ⟨u', old, hv', rfl⟩, rfl, rfl⟩ := h
    rw [hv] at hv'; cases hv'
    have hu : terminatedUnvested s = u := by simp [terminatedUnvested, hv]
    rw [hu] at h4 ⊢
    exact ⟨h0, h1, .withdraw r u hv h2 h4⟩

/-- The staking information with a new deposit, idle. -/
def withDeposit (s : Lockup) (si : StakingInfo) (d : Nat) : Lockup :=
  { s with staking := some ⟨si.pool, false, d⟩ }

/-- Effects of a successful callback that saw the promise result `r`. -/
inductive CbRel (s : Lockup) (r : PResult) : Callback → Lockup → Option Eff → Prop
  | whitelist (p : AccountId) : r = .bool true → s.staking = none →
      s.vesting.isTerminating = false →
      CbRel s r (.onWhitelist p) { s with staking := some ⟨p, false, 0⟩ } none
  | depositOk (cb : Callback) (a : Nat) (si : StakingInfo) :
      cb = .onDeposit a ∨ cb = .onDepositAndStake a → r.isOk = true → s.staking = some si →
      si.deposit + a < two128 → CbRel s r cb (withDeposit s si (si.deposit + a)) none
  | depositFailed (cb : Callback) (a : Nat) (si : StakingInfo) :
      cb = .onDeposit a ∨ cb = .onDepositAndStake a → r.isOk = false → s.staking = some si →
      CbRel s r cb (withDeposit s si si.deposit) none
  | withdrawOk (a : Nat) (si : StakingInfo) : r.isOk = true → s.staking = some si →
      CbRel s r (.onWithdraw a) (withDeposit s si (si.deposit - a)) none
  | withdrawFailed (a : Nat) (si : StakingInfo) : r.isOk = false → s.staking = some si →
      CbRel s r (.onWithdraw a) (withDeposit s si si.deposit) none
  | stakeLike (cb : Callback) (si : StakingInfo) :
      (∃ a, cb = .onStake a) ∨ (∃ a, cb = .onUnstake a) ∨ cb = .onUnstakeAll →
      s.staking = some si → CbRel s r cb (withDeposit s si si.deposit) none
  | pollYes (t : Nat) : r = .poll (some t) → t < two64 → transfersEnabled s = false →
      CbRel s r .onPollResult { s with info := { s.info with transfers := .enabled t } } none
  | pollNo : r = .poll none → transfersEnabled s = false → CbRel s r .onPollResult s none
  | total (n : Nat) (si : StakingInfo) : r = .balance n → n < two128 → s.staking = some si →
      CbRel s r .onTotalBalance (withDeposit s si n) none
  | unstakedSome (n : Nat) (si : StakingInfo) : r = .balance n → 0 < n → n < two128 →
      s.staking = some si →
      CbRel s r .onUnstakedToWithdrawByOwner s
        (some ⟨.poolWithdraw si.pool n, some (.onWithdraw n)⟩)
  | unstakedNone (si : StakingInfo) : r = .balance 0 → s.staking = some si →
      CbRel s r .onUnstakedToWithdrawByOwner (withDeposit s si si.deposit) none
  | tStakedSome (n : Nat) (si : StakingInfo) : r = .balance n → 0 < n → n < two128 →
      s.staking = some si →
      CbRel s r .onStakedToUnstake s
        (some ⟨.poolUnstake si.pool n, some (.onUnstakeForTermination n)⟩)
  | tStakedNone (si : StakingInfo) (u : Nat) (old : TStatus) : r = .balance 0 →
      s.staking = some si → s.vesting = .terminating u old →
      CbRel s r .onStakedToUnstake
        { withDeposit s si si.deposit with vesting := .terminating u .everythingUnstaked } none
  | tUnstake (a : Nat) (si : StakingInfo) (u : Nat) (old : TStatus) :
      s.staking = some si → s.vesting = .terminating u old →
      CbRel s r (.onUnstakeForTermination a)
        { withDeposit s si si.deposit with
          vesting := .terminating u
            (if r.isOk then .everythingUnstaked else .terminatedWithDeficit) } none
  | tUnstakedSome (n : Nat) (si : StakingInfo) : r = .balance n → 0 < n → n < two128 →
      s.staking = some si →
      CbRel s r .onUnstakedToWithdraw s
        (some ⟨.poolWithdraw si.pool n, some (.onWithdrawForTermination n)⟩)
  | tUnstakedNone (si : StakingInfo) (u : Nat) (old : TStatus) : r = .balance 0 →
      s.staking = some si → s.vesting = .terminating u old →
      CbRel s r .onUnstakedToWithdraw
        { withDeposit s si si.deposit with vesting := .terminating u .readyToWithdraw } none
  | tWithdrawOk (a : Nat) (si : StakingInfo) (u : Nat) (old : TStatus) : r.isOk = true →
      s.staking = some si → s.vesting = .terminating u old →
      CbRel s r (.onWithdrawForTermination a)
        { withDeposit s si (si.deposit - a) with vesting := .terminating u .readyToWithdraw } none
  | tWithdrawFailed (a : Nat) (si : StakingInfo) (u : Nat) (old : TStatus) : r.isOk = false →
      s.staking = some si → s.vesting = .terminating u old →
      CbRel s r (.onWithdrawForTermination a)
        { withDeposit s si si.deposit with vesting := .terminating u .everythingUnstaked } none
  | paidSome (a : Nat) (rc : AccountId) : r.isOk = true →
      s.info.terminationWithdrawn + a < two128 → a < terminatedUnvested s →
      CbRel s r (.onWithdrawUnvested a rc)
        { s with
          info := { s.info with terminationWithdrawn := s.info.terminationWithdrawn + a }
          vesting := .terminating (terminatedUnvested s - a) .readyToWithdraw } none
  | paidAll (a : Nat) (rc : AccountId) : r.isOk = true →
      s.info.terminationWithdrawn + a < two128 → terminatedUnvested s ≤ a →
      CbRel s r (.onWithdrawUnvested a rc)
        { s with
          info := { s.info with terminationWithdrawn := s.info.terminationWithdrawn + a }
          vesting := .none, foundation := none } none
  | paidFailed (a : Nat) (rc : AccountId) (u : Nat) (old : TStatus) : r.isOk = false →
      s.vesting = .terminating u old →
      CbRel s r (.onWithdrawUnvested a rc)
        { s with vesting := .terminating u .readyToWithdraw } none

theorem onDeposit_rel {e : Env} {s s' : Lockup} {a : Nat} {eff : Option Eff} {cb : Callback}
    (hcb : cb = .onDeposit a ∨ cb = .onDepositAndStake a)
    (h : onDeposit e s a = .ok (s', eff)) :
    e.predecessor = e.self ∧ ∃ r, e.result = some r ∧ CbRel s r cb s' eff := by
  simp only [onDeposit, bind_ok, assertSelf_ok, isPromiseSuccess_ok, setBusy_ok] at h
  obtain ⟨_, h0, b, ⟨r, h1, rfl⟩, s1, ⟨si, h2, rfl⟩, h3⟩ := h
  refine ⟨h0, r, h1, ?_⟩
  cases hr : r.isOk with
  | true =>
    rw [hr, if_pos rfl] at h3
    simp only [increaseDeposit, bind_ok, selected_ok, addU128_ok, pure_ok, Prod.mk.injEq] at h3
    obtain ⟨_, ⟨si', h4, d, ⟨h5, rfl⟩, rfl⟩, rfl, rfl⟩ := h3
    cases h4
    exact .depositOk cb a si hcb hr h2 h5
  | false =>
    rw [hr, if_neg (by simp)] at h3
    simp only [pure_ok, Prod.mk.injEq] at h3
    obtain ⟨rfl, rfl⟩ := h3
    exact .depositFailed cb a si hcb hr h2

theorem onStakeLike_rel {e : Env} {s s' : Lockup} {eff : Option Eff} {cb : Callback}
    (hcb : (∃ a, cb = .onStake a) ∨ (∃ a, cb = .onUnstake a) ∨ cb = .onUnstakeAll)
    (h : onStakeLike e s = .ok (s', eff)) :
    e.predecessor = e.self ∧ ∃ r, e.result = some r ∧ CbRel s r cb s' eff := by
  simp only [onStakeLike, bind_ok, assertSelf_ok, isPromiseSuccess_ok, setBusy_ok, pure_ok,
    Prod.mk.injEq] at h
  obtain ⟨_, h0, b, ⟨r, h1, rfl⟩, s1, ⟨si, h2, rfl⟩, rfl, rfl⟩ := h
  exact ⟨h0, r, h1, .stakeLike cb si hcb h2⟩

theorem execCallback_rel {e : Env} {s s' : Lockup} {cb : Callback} {eff : Option Eff}
    (h : execCallback e s cb = .ok (s', eff)) :
    e.predecessor = e.self ∧ ∃ r, e.result = some r ∧ CbRel s r cb s' eff := by
  cases cb with
  | onWhitelist p =>
    simp only [execCallback, onWhitelist, bind_ok, callbackBool_ok, assertSelf_ok, require_ok,
      assertNotSelected_ok, assertNoTermination_ok, pure_ok, Prod.mk.injEq] at h
    obtain ⟨b, h0, _, h1, _, rfl, _, h2, _, h3, rfl, rfl⟩ := h
    exact ⟨h1, _, h0, .whitelist p rfl h2 h3⟩
  | onDeposit a => exact onDeposit_rel (.inl rfl) h
  | onDepositAndStake a => exact onDeposit_rel (.inr rfl) h
  | onWithdraw a =>
    simp only [execCallback, onWithdraw, bind_ok, assertSelf_ok, isPromiseSuccess_ok,
      setBusy_ok] at h
    obtain ⟨_, h0, b, ⟨r, h1, rfl⟩, s1, ⟨si, h2, rfl⟩, h3⟩ := h
    refine ⟨h0, r, h1, ?_⟩
    cases hr : r.isOk with
    | true =>
      rw [hr, if_pos rfl] at h3
      simp only [decreaseDeposit, bind_ok, selected_ok, pure_ok, Prod.mk.injEq] at h3
      obtain ⟨_, ⟨si', h4, rfl⟩, rfl, rfl⟩ := h3
      cases h4
      exact .withdrawOk a si hr h2
    | false =>
      rw [hr, if_neg (by simp)] at h3
      simp only [pure_ok, Prod.mk.injEq] at h3
      obtain ⟨rfl, rfl⟩ := h3
      exact .withdrawFailed a si hr h2
  | onStake a => exact onStakeLike_rel (.inl ⟨a, rfl⟩) h
  | onUnstake a => exact onStakeLike_rel (.inr (.inl ⟨a, rfl⟩)) h
  | onUnstakeAll => exact onStakeLike_rel (.inr (.inr rfl)) h
  | onPollResult =>
    simp only [execCallback, onPollResult, bind_ok, assertSelf_ok, assertTransfersDisabled_ok] at h
    obtain ⟨r, h0, _, h1, _, h2, h3⟩ := h
    obtain ⟨h4, h5⟩ := callbackPoll_ok h0
    refine ⟨h1, _, h4, ?_⟩
    cases r with
    | none =>
      simp only [pure_ok, Prod.mk.injEq] at h3
      obtain ⟨rfl, rfl⟩ := h3
      exact .pollNo rfl h2
    | some t =>
      simp only [pure_ok, Prod.mk.injEq] at h3
      obtain ⟨rfl, rfl⟩ := h3
      exact .pollYes t rfl (h5 t rfl) h2
  | onTotalBalance =>
    simp only [execCallback, onTotalBalance, bind_ok, callbackBalance_ok, assertSelf_ok,
      setBusy_ok, selected_ok, pure_ok, Prod.mk.injEq] at h
    obtain ⟨n, ⟨h0, h1⟩, _, h2, s1, ⟨si, h3, rfl⟩, si', h4, rfl, rfl⟩ := h
    cases h4
    exact ⟨h2, _, h0, .total n si rfl h1 h3⟩
  | onUnstakedToWithdrawByOwner =>
    simp only [execCallback, onUnstakedToWithdrawByOwner, bind_ok, callbackBalance_ok,
      assertSelf_ok] at h
    obtain ⟨n, ⟨h0, h1⟩, _, h2, h3⟩ := h
    refine ⟨h2, _, h0, ?_⟩
    by_cases hn : n > 0
    · rw [if_pos hn] at h3
      simp only [bind_ok, selected_ok, pure_ok, Prod.mk.injEq] at h3
      obtain ⟨si, h4, rfl, rfl⟩ := h3
      exact .unstakedSome n si rfl hn h1 h4
    · rw [if_neg hn] at h3
      simp only [bind_ok, setBusy_ok, pure_ok, Prod.mk.injEq] at h3
      obtain ⟨s1, ⟨si, h4, rfl⟩, rfl, rfl⟩ := h3
      exact .unstakedNone si (by rw [Nat.eq_zero_of_not_pos hn]) h4
  | onStakedToUnstake =>
    simp only [execCallback, onStakedToUnstake, bind_ok, callbackBalance_ok,
      assertSelf_ok] at h
    obtain ⟨n, ⟨h0, h1⟩, _, h2, h3⟩ := h
    refine ⟨h2, _, h0, ?_⟩
    by_cases hn : n > 0
    · rw [if_pos hn] at h3
      simp only [bind_ok, selected_ok, pure_ok, Prod.mk.injEq] at h3
      obtain ⟨si, h4, rfl, rfl⟩ := h3
      exact .tStakedSome n si rfl hn h1 h4
    · rw [if_neg hn] at h3
      simp only [bind_ok, setBusy_ok, setTermination_ok, pure_ok, Prod.mk.injEq] at h3
      obtain ⟨s1, ⟨si, h4, rfl⟩, s2, ⟨u, old, h5, rfl⟩, rfl, rfl⟩ := h3
      exact .tStakedNone si u old (by rw [Nat.eq_zero_of_not_pos hn]) h4 h5
  | onUnstakeForTermination a =>
    simp only [execCallback, onUnstakeForTermination, bind_ok, isPromiseSuccess_ok,
      assertSelf_ok, setBusy_ok, setTermination_ok, pure_ok, Prod.mk.injEq] at h
    obtain ⟨_, h0, b, ⟨r, h1, rfl⟩, s1, ⟨si, h2, rfl⟩, s2, ⟨u, old, h3, rfl⟩, rfl, rfl⟩ := h
    exact ⟨h0, r, h1, .tUnstake a si u old h2 h3⟩
  | onUnstakedToWithdraw =>
    simp only [execCallback, onUnstakedToWithdraw, bind_ok, callbackBalance_ok,
      assertSelf_ok] at h
    obtain ⟨n, ⟨h0, h1⟩, _, h2, h3⟩ := h
    refine ⟨h2, _, h0, ?_⟩
    by_cases hn : n > 0
    · rw [if_pos hn] at h3
      simp only [bind_ok, selected_ok, pure_ok, Prod.mk.injEq] at h3
      obtain ⟨si, h4, rfl, rfl⟩ := h3
      exact .tUnstakedSome n si rfl hn h1 h4
    · rw [if_neg hn] at h3
      simp only [bind_ok, setBusy_ok, setTermination_ok, pure_ok, Prod.mk.injEq] at h3
      obtain ⟨s1, ⟨si, h4, rfl⟩, s2, ⟨u, old, h5, rfl⟩, rfl, rfl⟩ := h3
      exact .tUnstakedNone si u old (by rw [Nat.eq_zero_of_not_pos hn]) h4 h5
  | onWithdrawForTermination a =>
    simp only [execCallback, onWithdrawForTermination, bind_ok, isPromiseSuccess_ok,
      assertSelf_ok, setBusy_ok] at h
    obtain ⟨_, h0, b, ⟨r, h1, rfl⟩, s1, ⟨si, h2, rfl⟩, h3⟩ := h
    refine ⟨h0, r, h1, ?_⟩
    cases hr : r.isOk with
    | true =>
      rw [hr, if_pos rfl] at h3
      simp only [decreaseDeposit, bind_ok, setTermination_ok, selected_ok, pure_ok,
        Prod.mk.injEq] at h3
      obtain ⟨_, ⟨u, old, h5, rfl⟩, _, ⟨si', h4, rfl⟩, rfl, rfl⟩ := h3
      cases h4
      exact .tWithdrawOk a si u old hr h2 h5
    | false =>
      rw [hr, if_neg (by simp)] at h3
      simp only [bind_ok, setTermination_ok, pure_ok, Prod.mk.injEq] at h3
      obtain ⟨_, ⟨u, old, h5, rfl⟩, rfl, rfl⟩ := h3
      exact .tWithdrawFailed a si u old hr h2 h5
  | onWithdrawUnvested a rc =>
    simp only [execCallback, onWithdrawUnvested, bind_ok, isPromiseSuccess_ok,
      assertSelf_ok] at h
    obtain ⟨_, h0, b, ⟨r, h1, rfl⟩, h3⟩ := h
    refine ⟨h0, r, h1, ?_⟩
    cases hr : r.isOk with
    | true =>
      rw [hr, if_pos rfl] at h3
      simp only [recordWithdrawn, bind_ok, addU128_ok, pure_ok, Prod.mk.injEq] at h3
      obtain ⟨s1, ⟨w, ⟨h4, rfl⟩, h5⟩, rfl, rfl⟩ := h3
      by_cases hu : terminatedUnvested s > a
      · rw [if_pos hu, pure_ok] at h5; subst h5
        exact .paidSome a rc hr h4 hu
      · rw [if_neg hu, pure_ok] at h5; subst h5
        exact .paidAll a rc hr h4 (by omega)
    | false =>
      rw [hr, if_neg (by simp)] at h3
      simp only [bind_ok, setTermination_ok, pure_ok, Prod.mk.injEq] at h3
      obtain ⟨_, ⟨u, old, h5, rfl⟩, rfl, rfl⟩ := h3
      exact .paidFailed a rc u old hr h5

end Verif.Lockup
