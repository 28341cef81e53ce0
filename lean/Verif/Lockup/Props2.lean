import Verif.Lockup.Props1

/-!
# Lockup properties C24–C28: covered tokens, one pool operation at a time, termination payments
-/

namespace Verif.Lockup

open Verif

/-! ## C24 -/

/-- Tokens of one unfinished promise that still back the locked amount: a deposit on its way to the
pool; a payment of unvested tokens that has not failed and is not yet subtracted from the locked
amount (that happens in the callback). -/
def backing (p : Pending) : Nat :=
  match p.ext, p.cb, p.phase with
  | .poolDeposit _ a, _, .sent => a
  | .poolDepositAndStake _ a, _, .sent => a
  | .transfer _ a, some _, .sent => a
  | .transfer _ a, some _, .done r => if r = .failed then 0 else a
  | _, _, _ => 0

/-- Tokens in flight that back the locked amount. -/
def inFlight (w : World) : Nat := (w.pend.map backing).sum

theorem inflight_eq {c : Lockup} {p : Pending} (h : Coh c p.ext p.cb) : inflight p = backing p := by
  obtain ⟨ext, cb, ph⟩ := p
  cases h <;> cases ph <;> try rfl
  rename_i r
  cases r <;> rfl

theorem psum_inflight {w : World} (h : SInv w) : psum inflight w.pend = inFlight w := by
  have hc := h.coh
  unfold inFlight psum
  congr 1
  exact List.map_congr_left (fun p hp => inflight_eq (hc p hp))

/-- **C24.** In every history with pools that keep their word, the tokens on the account, on their way
back to it, held by the pools (or lost there by rounding) and in flight cover the locked amount. For a
lockup without vesting or with a public schedule this holds forever; for a private (hashed) schedule
until the foundation terminates the vesting. -/
theorem C24_locked_tokens_covered {cfg : Cfg} {a : NewArgs} {w : World} (h : Reachable cfg a w)
    (hon : cfg.honestPools = true) (hv : VestingOk cfg (argVesting a))
    (hn : (∀ b, a.vesting ≠ some (.hash b)) ∨ w.fixedUnvested = none) (e : Env)
    (he : e.now = w.now) :
    ∃ l, getLockedAmount e w.c = .ok l ∧
      l ≤ w.bal + w.incoming + w.held + w.loss + inFlight w := by
  have hn' : NoHash (argVesting a) ∨ w.fixedUnvested = none := by
    refine hn.imp (fun h b => ?_) id
    unfold argVesting
    cases ha : a.vesting with
    | none => simp
    | some x =>
      cases x with
      | hash b' => exact absurd ha (h b')
      | schedule vs => simp
  have hc := reachable_cov h hon hv hn'
  have hg := (reachable_good h hv).1
  refine ⟨_, getLockedAmount_eq hg, ?_⟩
  unfold Cov at hc
  rw [he]
  rw [psum_inflight (reachable_sinv h)] at hc
  exact hc

/-- Events other than losses of the pools. -/
def Ev.lossFree : Ev → Prop
  | .poolLoss _ => False
  | _ => True

theorem loss_step {cfg : Cfg} {w : World} {ev : Ev} (h : ev.lossFree) :
    (step cfg w ev).loss = w.loss := by
  cases ev with
  | call who att c => simp only [step, doCall]; (repeat' split) <;> rfl
  | execute i r =>
    have hx := fun p => (runExt_facts cfg w p r).2.2.2.2.2.2
    simp only [step, execute]
    split
    · split <;> exact hx _
    · rfl
  | callback i => simp only [step, callback, doCall]; (repeat' split) <;> rfl
  | arrive x => simp only [step]; split <;> rfl
  | income x => rfl
  | tick x => rfl
  | poolReward x => rfl
  | poolLoss x => exact absurd h id

/-- **C24.** When the pools lose nothing and nothing is in flight, the account and the pools together
hold at least the locked amount. -/
theorem C24_quiet_world {cfg : Cfg} {a : NewArgs} {w0 : World} {evs : List Ev}
    (h : Started cfg a w0) (hon : cfg.honestPools = true) (hv : VestingOk cfg (argVesting a))
    (hn : ∀ b, a.vesting ≠ some (.hash b)) (hl : ∀ ev ∈ evs, ev.lossFree)
    (hp : (run cfg w0 evs).pend = []) (hi : (run cfg w0 evs).incoming = 0) (e : Env)
    (he : e.now = (run cfg w0 evs).now) :
    ∃ l, getLockedAmount e (run cfg w0 evs).c = .ok l ∧
      l ≤ (run cfg w0 evs).bal + (run cfg w0 evs).held := by
  obtain ⟨l, h1, h2⟩ := C24_locked_tokens_covered ⟨w0, evs, h, rfl⟩ hon hv (.inl hn) e he
  have hloss : ∀ (l : List Ev) (w : World), (∀ ev ∈ l, ev.lossFree) →
      (run cfg w l).loss = w.loss := by
    intro l
    induction l with
    | nil => intro w _; rfl
    | cons ev t ih =>
      intro w hl
      have := ih (step cfg w ev) (fun x hx => hl x (by simp [hx]))
      exact this.trans (loss_step (hl ev (by simp)))
  have h0 : w0.loss = 0 := by obtain ⟨d, b, n, c, hb, hn, rfl⟩ := h; rfl
  have h3 := hloss evs w0 hl
  refine ⟨l, h1, ?_⟩
  have h4 : inFlight (run cfg w0 evs) = 0 := by unfold inFlight; rw [hp]; rfl
  omega

/-- The owner of a lockup with a private schedule and no release takes everything, then the
foundation terminates the vesting and reveals the schedule. -/
def privRun : List Ev :=
  [.tick 600, .call "owner" 0 (.owner (.transfer 6500000000000000000000000 "bob")),
   .execute 0 .unit, .call "fdn" 0 (.foundation (.terminateVesting (some privSalted)))]

/-- **C24, limit**: for a private schedule the tokens are not covered after a termination, because the
contract does not know the unvested amount before: 10 NEAR are locked, 3.5 NEAR are there. -/
theorem C24_private_schedule_not_covered :
    ∃ w, Reachable demoCfg privArgs w ∧ demoCfg.honestPools = true ∧
      VestingOk demoCfg (argVesting privArgs) ∧ w.pend = [] ∧ w.incoming = 0 ∧ w.held = 0 ∧
      w.loss = 0 ∧ getLockedAmount (mkEnv demoCfg w "x" 0 none) w.c = .ok tenNear ∧
      w.bal = 35 * 10 ^ 23 ∧ 35 * 10 ^ 23 < tenNear := by
  refine ⟨run demoCfg (startOf privArgs) privRun, ⟨_, _, priv_started, rfl⟩, rfl, ?_, ?_⟩
  · intro s h1 h2 h3 h4
    have h5 : s.borsh = privSalted.borsh := h4
    have h6 : leBytes 8 s.schedule.start = leBytes 8 100 ∧ leBytes 8 s.schedule.cliff = leBytes 8 2000
        ∧ leBytes 8 s.schedule.finish = leBytes 8 4000 := by
      unfold ScheduleWithSalt.borsh at h5
      have len : ∀ k n, (leBytes k n).length = k := by
        intro k; induction k with
        | zero => intro n; rfl
        | succ k ih => intro n; simp [leBytes, ih]
      obtain ⟨e1, h5⟩ := List.append_inj h5 (by rw [len, len])
      obtain ⟨e2, h5⟩ := List.append_inj h5 (by rw [len, len])
      obtain ⟨e3, h5⟩ := List.append_inj h5 (by rw [len, len])
      exact ⟨e1, e2, e3⟩
    have inj : ∀ k n m, n < 256 ^ k → m < 256 ^ k → leBytes k n = leBytes k m → n = m := by
      intro k
      induction k with
      | zero => intro n m h1 h2 _; simp at h1 h2; omega
      | succ k ih =>
        intro n m h1 h2 h
        simp only [leBytes, List.cons.injEq] at h
        obtain ⟨g1, g2⟩ := h
        have h3 : n % 256 = m % 256 := by
          have := congrArg UInt8.toNat g1
          simpa using this
        have h4 := ih (n / 256) (m / 256) (by rw [pow_succ] at h1; omega)
          (by rw [pow_succ] at h2; omega) g2
        omega
    have b8 : (256 : Nat) ^ 8 = two64 := by unfold two64; norm_num
    have s1 := inj 8 _ _ (by rw [b8]; exact h1) (by norm_num) h6.1
    have s2 := inj 8 _ _ (by rw [b8]; exact h2) (by norm_num) h6.2.1
    have s3 := inj 8 _ _ (by rw [b8]; exact h3) (by norm_num) h6.2.2
    exact ⟨by omega, by omega, by omega⟩
  · refine ⟨?_, ?_, ?_, ?_, ?_, ?_, ?_⟩ <;> decide +kernel

/-- the demo world: 5 NEAR on the account, 5 NEAR at the pool, 10 NEAR locked -/
example : demoStaked.bal + demoStaked.held = tenNear ∧ demoStaked.pend = [] ∧
    demoStaked.incoming = 0 ∧ (∀ b, demoArgs.vesting ≠ some (.hash b)) := by
  refine ⟨by decide +kernel, by decide +kernel, by decide +kernel, by intro b h; cases h⟩

/-! ## C25 -/

/-- Receipts sent to a staking pool. -/
def Ext.isPoolOp : Ext → Bool
  | .poolDeposit _ _ | .poolDepositAndStake _ _ | .poolWithdraw _ _ | .poolStake _ _
  | .poolUnstake _ _ | .poolUnstakeAll _ | .poolStakedBalance _ | .poolUnstakedBalance _
  | .poolTotalBalance _ => true
  | _ => false

/-- The unfinished staking pool operations. -/
def poolOps (w : World) : List Pending := w.pend.filter (fun p => p.ext.isPoolOp)

theorem opN_eq {c : Lockup} {p : Pending} (h : Coh c p.ext p.cb) :
    opN p = if p.ext.isPoolOp then 1 else 0 := by
  obtain ⟨ext, cb, ph⟩ := p
  cases h <;> rfl

theorem poolOps_length {w : World} (h : SInv w) : (poolOps w).length = psum opN w.pend := by
  have hc := h.coh
  unfold poolOps
  generalize w.pend = l at hc
  induction l with
  | nil => rfl
  | cons p t ih =>
    have h1 := opN_eq (hc p (by simp))
    have h2 := ih (fun q hq => hc q (by simp [hq]))
    rw [psum_cons, h1, List.filter_cons]
    by_cases hp : p.ext.isPoolOp = true
    · rw [if_pos hp, if_pos hp, List.length_cons, h2]; omega
    · rw [if_neg hp, if_neg hp, h2]; omega

/-- While the pool is marked busy, the owner can only check the transfers vote. -/
theorem busy_rejects_owner {cfg : Cfg} {w : World} {si : StakingInfo} (hs : w.c.staking = some si)
    (hb : si.busy = true) (who : AccountId) (att : Nat) {c : OwnerCall}
    (hc : c ≠ .checkTransfersVote) : step cfg w (.call who att (.owner c)) = w := by
  simp only [step]
  split
  · rfl
  rcases doCall_cases cfg w who att none (.owner c) with ⟨hd, _⟩ | ⟨c', eff, hx, ha, hd⟩
  · exact hd
  · obtain ⟨_, _, _, hr⟩ := execOwner_rel hx
    cases hr with
    | select p h1 h2 => rw [hs] at h2; cases h2
    | unselect si' h1 h2 => rw [hs] at h1; cases h1; rw [hb] at h2; cases h2
    | op c si' ext cb h1 h2 => rw [hs] at h1; cases h1; rw [hb] at h2; cases h2
    | poll p h1 => exact absurd rfl hc
    | transfer a r l h1 h2 h3 => have := h3 si hs; rw [hb] at this; cases this
    | addKey k h1 h2 => have := h2 si hs; rw [hb] at this; cases this

theorem busy_rejects_prepare {cfg : Cfg} {w : World} {si : StakingInfo}
    (hs : w.c.staking = some si) (hb : si.busy = true) (who : AccountId) (att : Nat) :
    step cfg w (.call who att (.foundation .terminationPrepareToWithdraw)) = w := by
  simp only [step]
  split
  · rfl
  rcases doCall_cases cfg w who att none (.foundation .terminationPrepareToWithdraw) with
    ⟨hd, _⟩ | ⟨c', eff, hx, ha, hd⟩
  · exact hd
  · have hx' : execFoundation (mkEnv cfg w who att none) w.c .terminationPrepareToWithdraw =
        .ok (c', eff) := hx
    obtain ⟨_, _, hr⟩ := execFoundation_rel hx'
    cases hr with
    | prepareUnstake si' u h1 h2 => rw [hs] at h1; cases h1; rw [hb] at h2; cases h2
    | prepareWithdraw si' u h1 h2 => rw [hs] at h1; cases h1; rw [hb] at h2; cases h2

/-- **C25.** At most one staking pool operation is unfinished at any time; while there is one, every
method of the owner except the transfers vote, and the preparation of a termination withdrawal, is
rejected without effect. -/
theorem C25_one_pool_operation {cfg : Cfg} {a : NewArgs} {w : World} (h : Reachable cfg a w) :
    (poolOps w).length ≤ 1 ∧
    (poolOps w ≠ [] →
      (∀ who att c, c ≠ OwnerCall.checkTransfersVote →
        step cfg w (.call who att (.owner c)) = w) ∧
      (∀ who att, step cfg w (.call who att (.foundation .terminationPrepareToWithdraw)) = w)) := by
  have hS := reachable_sinv h
  have h1 := poolOps_length hS
  have h2 := hS.ops
  have h3 := busyN_le w.c
  refine ⟨by omega, fun hne => ?_⟩
  have h4 : 0 < (poolOps w).length := List.length_pos_iff.mpr hne
  obtain ⟨si, hs, hb⟩ := busyN_pos (c := w.c) (by omega)
  exact ⟨fun who att c hc => busy_rejects_owner hs hb who att hc,
    fun who att => busy_rejects_prepare hs hb who att⟩

/-- a pool operation in flight -/
example : (poolOps (run demoCfg demoStaked [.call "owner" 0 (.owner (.unstake 7))])).length = 1 := by
  decide +kernel

/-! ## C26 -/

/-- The pool is marked busy but no operation is in flight. -/
def Stuck (w : World) (pool : AccountId) (d : Nat) : Prop :=
  w.c.staking = some ⟨pool, true, d⟩ ∧ psum opN w.pend = 0

theorem stuck_step {cfg : Cfg} {w : World} {pool : AccountId} {d : Nat} (ev : Ev)
    (h : Stuck w pool d) : Stuck (step cfg w ev) pool d := by
  obtain ⟨hs, ho⟩ := h
  have hcase := step_case cfg w ev
  generalize step cfg w ev = w' at hcase
  cases hcase with
  | quiet ev w' h1 h2 => exact ⟨by rw [h1]; exact hs, by rw [h2]; exact ho⟩
  | owner who c c' eff h1 h2 h3 h4 hr =>
    cases hr with
    | select p h1 h2 => rw [hs] at h2; cases h2
    | unselect si' h1 h2 => rw [hs] at h1; cases h1; cases h2
    | op c si' ext cb h1 h2 => rw [hs] at h1; cases h1; cases h2
    | poll p h1 =>
      refine ⟨hs, ?_⟩
      simp only [commit, psum_append, ho, effPending]; rfl
    | transfer a r l h1 h2 h3 => have := h3 _ hs; cases this
    | addKey k h1 h2 => have := h2 _ hs; cases this
  | foundation who c c' eff h1 h2 h3 hr =>
    cases hr with
    | terminate arg vs u st => exact ⟨hs, by simp only [commit, psum_append, ho, effPending]; rfl⟩
    | prepareUnstake si' u h1 h2 => rw [hs] at h1; cases h1; cases h2
    | prepareWithdraw si' u h1 h2 => rw [hs] at h1; cases h1; cases h2
    | withdraw r u h1 => exact ⟨hs, by simp only [commit, psum_append, ho, effPending]; rfl⟩
  | execNone i ext r hi =>
    refine ⟨?_, ?_⟩
    · have := (runExt_facts cfg w ⟨ext, none, .sent⟩ r).1
      simp only [this]; exact hs
    · have := psum_eraseIdx opN hi
      show psum opN (w.pend.eraseIdx i) = 0
      omega
  | execSome i ext cb r hi =>
    refine ⟨?_, ?_⟩
    · have := (runExt_facts cfg w ⟨ext, some cb, .sent⟩ r).1
      simp only [this]; exact hs
    · have := psum_set opN (q := ⟨ext, some cb, .done (runExt cfg w ⟨ext, some cb, .sent⟩ r).1⟩) hi
      have h0 := all_zero_of_psum ho _ (mem_of_getElem?' hi)
      show psum opN (w.pend.set i _) = 0
      have h1 : opN ⟨ext, some cb, .done (runExt cfg w ⟨ext, some cb, .sent⟩ r).1⟩ =
        opN ⟨ext, some cb, .sent⟩ := rfl
      omega
  | callbackOk i ext cb r c' eff hi hr =>
    have h0 := all_zero_of_psum ho _ (mem_of_getElem?' hi)
    have h1 := psum_eraseIdx opN hi
    have h2 : psum opN (w.pend.eraseIdx i) = 0 := by omega
    have hnop : cb.isOp = false := by
      simp only [opN] at h0
      by_cases hb : cb.isOp = true
      · rw [if_pos hb] at h0; cases h0
      · simpa using hb
    have hpend : eff = none → psum opN (commit { w with pend := w.pend.eraseIdx i } 0 c' eff).pend
        = 0 := by
      rintro rfl
      simp only [commit, psum_append, h2, effPending]; rfl
    cases hr with
    | whitelist p h1 h2 => rw [hs] at h2; cases h2
    | depositOk cb a si h1 => rcases h1 with rfl | rfl <;> cases hnop
    | depositFailed cb a si h1 => rcases h1 with rfl | rfl <;> cases hnop
    | withdrawOk => cases hnop
    | withdrawFailed => cases hnop
    | stakeLike cb si h1 => rcases h1 with ⟨a, rfl⟩ | ⟨a, rfl⟩ | rfl <;> cases hnop
    | pollYes => exact ⟨hs, hpend rfl⟩
    | pollNo => exact ⟨hs, hpend rfl⟩
    | total => cases hnop
    | unstakedSome => cases hnop
    | unstakedNone => cases hnop
    | tStakedSome => cases hnop
    | tStakedNone => cases hnop
    | tUnstake => cases hnop
    | tUnstakedSome => cases hnop
    | tUnstakedNone => cases hnop
    | tWithdrawOk => cases hnop
    | tWithdrawFailed => cases hnop
    | paidSome => exact ⟨hs, hpend rfl⟩
    | paidAll => exact ⟨hs, hpend rfl⟩
    | paidFailed => exact ⟨hs, hpend rfl⟩
  | callbackPanic i ext cb r hi =>
    refine ⟨hs, ?_⟩
    have h1 := psum_eraseIdx opN hi
    show psum opN (w.pend.eraseIdx i) = 0
    omega

theorem stuck_run {cfg : Cfg} {w : World} {pool : AccountId} {d : Nat} (evs : List Ev)
    (h : Stuck w pool d) : Stuck (run cfg w evs) pool d := by
  induction evs generalizing w with
  | nil => exact h
  | cons ev t ih => exact ih (stuck_step ev h)

/-- A termination that waits for an unstaking that is not in flight never gets on. -/
theorem stuck_termination_step {cfg : Cfg} {w : World} {pool : AccountId} {d u : Nat} (ev : Ev)
    (hS : SInv w) (h : Stuck w pool d) (hv : w.c.vesting = .terminating u .unstakingInProgress)
    (hp : psum payN w.pend = 0) :
    (step cfg w ev).c.vesting = .terminating u .unstakingInProgress ∧
    psum payN (step cfg w ev).pend = 0 ∧ (step cfg w ev).paid = w.paid := by
  have hS' := sinv_step (cfg := cfg) ev hS
  have hpaid : ∀ l : List Pending, psum payN l = 0 → psum paidAmt l = 0 := by
    intro l hl
    refine psum_zero_of_all (fun q hq => paidAmt_of_payAmt ?_)
    have := all_zero_of_psum hl q hq
    obtain ⟨ext, cb, ph⟩ := q
    cases cb with
    | none => rfl
    | some cb => cases cb <;> first | rfl | cases this
  have hst := stuck_step (cfg := cfg) ev h
  suffices hmain : (step cfg w ev).c.vesting = .terminating u .unstakingInProgress ∧
      (step cfg w ev).c.info.terminationWithdrawn = w.c.info.terminationWithdrawn ∧
      psum payN (step cfg w ev).pend = 0 by
    refine ⟨hmain.1, hmain.2.2, ?_⟩
    rw [hS'.paid, hS.paid, hpaid _ hmain.2.2, hpaid _ hp, hmain.2.1]
  obtain ⟨hs, ho⟩ := h
  have hcase := step_case cfg w ev
  generalize step cfg w ev = w' at hcase
  cases hcase with
  | quiet ev w' h1 h2 => rw [h1, h2]; exact ⟨hv, rfl, hp⟩
  | owner who c c' eff h1 h2 h3 h4 hr => rw [hv] at h3; cases h3
  | foundation who c c' eff h1 h2 h3 hr =>
    cases hr with
    | terminate arg vs u' st h1 =>
      have := (assertVesting_not_terminating h1).1
      rw [hv] at this; cases this
    | prepareUnstake si' u h1 h2 => rw [hs] at h1; cases h1; cases h2
    | prepareWithdraw si' u h1 h2 => rw [hs] at h1; cases h1; cases h2
    | withdraw r u h1 => rw [hv] at h1; cases h1
  | execNone i ext r hi =>
    have f1 := (runExt_facts cfg w ⟨ext, none, .sent⟩ r).1
    have := psum_eraseIdx payN hi
    simp only [f1]
    exact ⟨hv, trivial, by omega⟩
  | execSome i ext cb r hi =>
    have f1 := (runExt_facts cfg w ⟨ext, some cb, .sent⟩ r).1
    have h1 := psum_set payN (q := ⟨ext, some cb, .done (runExt cfg w ⟨ext, some cb, .sent⟩ r).1⟩) hi
    have h0 : payN ⟨ext, some cb, .done (runExt cfg w ⟨ext, some cb, .sent⟩ r).1⟩ =
      payN ⟨ext, some cb, .sent⟩ := rfl
    simp only [f1]
    exact ⟨hv, trivial, by omega⟩
  | callbackOk i ext cb r c' eff hi hr =>
    have h0 := all_zero_of_psum ho _ (mem_of_getElem?' hi)
    have h00 := all_zero_of_psum hp _ (mem_of_getElem?' hi)
    have h1 := psum_eraseIdx payN hi
    have h2 : psum payN (w.pend.eraseIdx i) = 0 := by omega
    have hnop : cb.isOp = false := by
      simp only [opN] at h0
      by_cases hb : cb.isOp = true
      · rw [if_pos hb] at h0; cases h0
      · simpa using hb
    have hpend : eff = none → psum payN (commit { w with pend := w.pend.eraseIdx i } 0 c' eff).pend
        = 0 := by
      rintro rfl
      simp only [commit, psum_append, h2, effPending]; rfl
    cases hr with
    | whitelist p h1 h2 => rw [hs] at h2; cases h2
    | depositOk cb a si h1 => rcases h1 with rfl | rfl <;> cases hnop
    | depositFailed cb a si h1 => rcases h1 with rfl | rfl <;> cases hnop
    | withdrawOk => cases hnop
    | withdrawFailed => cases hnop
    | stakeLike cb si h1 => rcases h1 with ⟨a, rfl⟩ | ⟨a, rfl⟩ | rfl <;> cases hnop
    | pollYes => exact ⟨hv, rfl, hpend rfl⟩
    | pollNo => exact ⟨hv, rfl, hpend rfl⟩
    | total => cases hnop
    | unstakedSome => cases hnop
    | unstakedNone => cases hnop
    | tStakedSome => cases hnop
    | tStakedNone => cases hnop
    | tUnstake => cases hnop
    | tUnstakedSome => cases hnop
    | tUnstakedNone => cases hnop
    | tWithdrawOk => cases hnop
    | tWithdrawFailed => cases hnop
    | paidSome => cases h00
    | paidAll => cases h00
    | paidFailed => cases h00
  | callbackPanic i ext cb r hi =>
    have h1 := psum_eraseIdx payN hi
    refine ⟨hv, rfl, ?_⟩
    show psum payN (w.pend.eraseIdx i) = 0
    omega

theorem stuck_termination_run {cfg : Cfg} {w : World} {pool : AccountId} {d u : Nat}
    (evs : List Ev) (hS : SInv w) (h : Stuck w pool d)
    (hv : w.c.vesting = .terminating u .unstakingInProgress) (hp : psum payN w.pend = 0) :
    (run cfg w evs).c.vesting = .terminating u .unstakingInProgress ∧
    (run cfg w evs).paid = w.paid := by
  induction evs generalizing w with
  | nil => exact ⟨hv, rfl⟩
  | cons ev t ih =>
    obtain ⟨h1, h2, h3⟩ := stuck_termination_step (cfg := cfg) ev hS h hv hp
    obtain ⟨g1, g2⟩ := ih (sinv_step ev hS) (stuck_step ev h) h1 h2
    exact ⟨g1, g2.trans h3⟩

/-- Once enabled, transfers stay enabled with the same timestamp (one step). -/
theorem enabled_step {cfg : Cfg} {w : World} {t : Nat} (ev : Ev)
    (h : w.c.info.transfers = .enabled t) : (step cfg w ev).c.info.transfers = .enabled t := by
  have hcase := step_case cfg w ev
  generalize step cfg w ev = w' at hcase
  cases hcase with
  | quiet ev w' h1 => rw [h1]; exact h
  | owner who c c' eff h1 h2 h3 h4 hr =>
    show c'.info.transfers = _
    rw [(ownerRel_facts hr).2.1]; exact h
  | foundation who c c' eff h1 h2 h3 hr => cases hr <;> exact h
  | execNone i ext r hi => simp only [(runExt_facts cfg w ⟨ext, none, .sent⟩ r).1]; exact h
  | execSome i ext cb r hi => simp only [(runExt_facts cfg w ⟨ext, some cb, .sent⟩ r).1]; exact h
  | callbackOk i ext cb r c' eff hi hr =>
    cases hr with
    | pollYes t' g1 g2 g3 => unfold transfersEnabled at g3; rw [h] at g3; cases g3
    | _ => exact h
  | callbackPanic i ext cb r hi => exact h

theorem enabled_run {cfg : Cfg} {w : World} {t : Nat} (evs : List Ev)
    (h : w.c.info.transfers = .enabled t) : (run cfg w evs).c.info.transfers = .enabled t := by
  induction evs generalizing w with
  | nil => exact h
  | cons ev t ih => exact ih (enabled_step ev h)

/-- The owner refreshes the balance and the view call at the pool fails. -/
def refreshFails : List Ev :=
  [.call "owner" 0 (.owner .refreshStakingPoolBalance), .execute 0 .failed, .callback 0]

/-- The foundation terminates, starts to unstake and the view call at the pool fails. -/
def prepareFails : List Ev :=
  [.call "fdn" 0 (.foundation (.terminateVesting none)),
   .call "fdn" 0 (.foundation .terminationPrepareToWithdraw), .execute 0 .failed, .callback 0]

theorem poll_rejected {cfg : Cfg} {w : World} {t : Nat} (h : w.c.info.transfers = .enabled t)
    (who : AccountId) (att : Nat) :
    step cfg w (.call who att (.owner .checkTransfersVote)) = w := by
  simp only [step]
  split
  · rfl
  rcases doCall_cases cfg w who att none (.owner .checkTransfersVote) with
    ⟨hd, _⟩ | ⟨c', eff, hx, ha, hd⟩
  · exact hd
  · have hx' : execOwner (mkEnv cfg w who att none) w.c .checkTransfersVote = .ok (c', eff) := hx
    obtain ⟨_, _, _, hr⟩ := execOwner_rel hx'
    cases hr with
    | op c si ext cb h1 h2 h3 h4 h5 =>
      simp only [exec, execOwner, checkTransfersVote, bind_ok, h] at hx
      obtain ⟨_, _, _, _, hx⟩ := hx
      simp [throw_ok] at hx
    | poll p h1 => rw [h] at h1; cases h1

/-- **C26 is false of the code.** The callbacks that receive a balance from the pool
(`#[callback]` arguments) panic when the view call failed, before the status is reset. After one
failed view call (1) every method of the owner is rejected in every future, although 5 NEAR are at
the pool; (2) if it happens to the foundation, the termination never completes and nothing is ever
paid. -/
theorem C26_failing_view_blocks_forever_refuted :
    (∃ w, Reachable demoCfg demoArgs w ∧ w.held = 5000000000000000000000000 ∧
      ∀ evs who att c, step demoCfg (run demoCfg w evs) (.call who att (.owner c)) =
        run demoCfg w evs) ∧
    (∃ w, Reachable demoCfg demoArgs w ∧ w.fixedUnvested = some tenNear ∧
      ∀ evs, (run demoCfg w evs).paid = 0 ∧
        (run demoCfg w evs).c.vesting = .terminating tenNear .unstakingInProgress) := by
  constructor
  · refine ⟨run demoCfg demoStaked refreshFails, demoStaked_reachable.run _, by decide +kernel, ?_⟩
    have h1 : Stuck (run demoCfg demoStaked refreshFails) "pool" 5000000000000000000000000 := by
      constructor <;> decide +kernel
    have h2 : (run demoCfg demoStaked refreshFails).c.info.transfers = .enabled 1000 := by
      decide +kernel
    intro evs who att c
    by_cases hc : c = .checkTransfersVote
    · subst hc; exact poll_rejected (enabled_run evs h2) who att
    · exact busy_rejects_owner (stuck_run evs h1).1 rfl who att hc
  · have hr := demoStaked_reachable.run prepareFails
    refine ⟨run demoCfg demoStaked prepareFails, hr, by decide +kernel, ?_⟩
    have h1 : Stuck (run demoCfg demoStaked prepareFails) "pool" 5000000000000000000000000 := by
      constructor <;> decide +kernel
    intro evs
    obtain ⟨g1, g2⟩ := stuck_termination_run (cfg := demoCfg) (u := tenNear) evs (reachable_sinv hr)
      h1 (by decide +kernel) (by decide +kernel)
    exact ⟨g2.trans (by decide +kernel), g1⟩

/-- The callbacks that take a balance from the pool as an argument. -/
def Callback.isView : Callback → Bool
  | .onTotalBalance | .onUnstakedToWithdrawByOwner | .onStakedToUnstake | .onUnstakedToWithdraw =>
    true
  | _ => false

/-- **C26, partial**: every pool operation returns to idle, whatever the pool did, when the answered
promise was not a balance view (or the view succeeded with a `u128`), and a successful deposit does
not overflow the known deposit. Or, after a view, the second receipt of a two-step operation is sent,
which is not a view. Missing: a failed view (see the refutation; C89 for the pools of /repo). -/
theorem C26_returns_to_idle_partial {cfg : Cfg} {a : NewArgs} {w : World} (h : Reachable cfg a w)
    {i : Nat} {ext : Ext} {cb : Callback} {r : PResult}
    (hi : w.pend[i]? = some ⟨ext, some cb, .done r⟩) (hop : ext.isPoolOp = true)
    (hview : cb.isView = true → ∃ n, r = .balance n ∧ n < two128)
    (hdep : ∀ x, cb = .onDeposit x ∨ cb = .onDepositAndStake x → r ≠ .failed →
      knownDeposited w.c + x < two128) :
    let w' := step cfg w (.callback i)
    (∃ si, w'.c.staking = some si ∧ si.busy = false ∧ poolOps w' = []) ∨
    (∃ ext' cb', cb.isView = true ∧ ext'.isPoolOp = true ∧ cb'.isView = false ∧
      w'.pend = w.pend.eraseIdx i ++ [⟨ext', some cb', .sent⟩]) := by
  have hS := reachable_sinv h
  have hmem := mem_of_getElem?' hi
  have hcoh : Coh w.c ext (some cb) := hS.coh _ hmem
  have hopN : opN ⟨ext, some cb, .done r⟩ = 1 := by rw [opN_eq (c := w.c) hcoh]; rw [if_pos hop]
  obtain ⟨hrest, hbusy⟩ := op_last hS hi hopN
  obtain ⟨si, hs, hb⟩ := busyN_pos (c := w.c) (by omega)
  have hneed : ∀ st, cb.needs = some st → ∃ u, w.c.vesting = .terminating u st :=
    fun st hst => hS.need _ hmem cb st rfl hst
  have hS' := sinv_step (cfg := cfg) (.callback i) hS
  suffices hmain : ∃ c' eff, exec (mkEnv cfg { w with pend := w.pend.eraseIdx i } cfg.self 0
      (some r)) w.c (.callback cb) = .ok (c', eff) ∧
      ((∃ si, c'.staking = some si ∧ si.busy = false ∧ eff = none) ∨
       ∃ ext' cb', cb.isView = true ∧ ext'.isPoolOp = true ∧ ext'.attached = 0 ∧
        cb'.isView = false ∧ eff = some ⟨ext', some cb'⟩) by
    obtain ⟨c', eff, hx, hres⟩ := hmain
    have hstep : step cfg w (.callback i) =
        commit { w with pend := w.pend.eraseIdx i } 0 c' eff := by
      simp only [step, callback, hi, doCall, hx]
      rw [if_pos]
      rcases hres with ⟨_, _, _, rfl⟩ | ⟨_, _, _, _, h0, _, rfl⟩
      · exact Nat.zero_le _
      · show Ext.attached _ ≤ _
        rw [h0]; exact Nat.zero_le _
    rw [hstep] at hS' ⊢
    rcases hres with ⟨si', h1, h2, rfl⟩ | ⟨ext', cb', hvw, h1, h0, h2, rfl⟩
    · refine .inl ⟨si', h1, h2, ?_⟩
      have h3 := poolOps_length hS'
      have h4 : psum opN (commit { w with pend := w.pend.eraseIdx i } 0 c' none).pend = 0 := by
        simp only [commit, psum_append, hrest, effPending]; rfl
      rw [h4] at h3
      exact List.eq_nil_of_length_eq_zero h3
    · exact .inr ⟨ext', cb', hvw, h1, h2, rfl⟩
  have hkd : knownDeposited w.c = si.deposit := known_some hs
  have hps : ∃ b, isPromiseSuccess (mkEnv cfg { w with pend := w.pend.eraseIdx i } cfg.self 0
      (some r)) = .ok b := by cases r <;> exact ⟨_, rfl⟩
  obtain ⟨b, hps⟩ := hps
  have hrf : b = true → r ≠ .failed := by
    rintro rfl rfl
    cases hps
  have hset : setBusy w.c false = .ok { w.c with staking := some { si with busy := false } } := by
    unfold setBusy; rw [hs]; rfl
  have hself : assertSelf (mkEnv cfg { w with pend := w.pend.eraseIdx i } cfg.self 0 (some r)) =
      .ok () := by rw [assertSelf_ok]; rfl
  have hset2 : ∀ st st' u, w.c.vesting = .terminating u st →
      setTermination { w.c with staking := some { si with busy := false } } st' =
        .ok { w.c with staking := some { si with busy := false }, vesting := .terminating u st' } := by
    intro st st' u hv
    unfold setTermination
    simp only [hv]; rfl
  have hpay : notPayable (mkEnv cfg { w with pend := w.pend.eraseIdx i } cfg.self 0 (some r)) =
      .ok () := by rw [notPayable_ok]; rfl
  have hbal : ∀ n, r = .balance n → n < two128 →
      callbackBalance (mkEnv cfg { w with pend := w.pend.eraseIdx i } cfg.self 0 (some r)) =
        .ok n := by
    rintro n rfl hn
    simp only [callbackBalance, mkEnv, bind_ok, decodeU128_ok, pure_ok]
    exact ⟨(), hn, trivial⟩
  cases cb with
  | onWhitelist p => cases hcoh; cases hop
  | onPollResult => cases hcoh; cases hop
  | onWithdrawUnvested x rc => cases hcoh; cases hop
  | onDeposit x =>
    simp only [exec, hpay, ok_bind, execCallback, onDeposit, hself, hps, hset]
    cases b with
    | true =>
      have hlt : si.deposit + x < two128 := by
        have := hdep x (.inl rfl) (hrf rfl)
        omega
      have hinc : increaseDeposit { w.c with staking := some { si with busy := false } } x =
          .ok { w.c with staking := some ⟨si.pool, false, si.deposit + x⟩ } := by
        simp only [increaseDeposit, bind_ok, selected_ok, addU128_ok, pure_ok]
        exact ⟨_, rfl, _, ⟨hlt, rfl⟩, rfl⟩
      rw [if_pos rfl, hinc]
      exact ⟨_, _, rfl, .inl ⟨_, rfl, rfl, rfl⟩⟩
    | false => exact ⟨_, _, rfl, .inl ⟨_, rfl, rfl, rfl⟩⟩
  | onDepositAndStake x =>
    simp only [exec, hpay, ok_bind, execCallback, onDeposit, hself, hps, hset]
    cases b with
    | true =>
      have hlt : si.deposit + x < two128 := by
        have := hdep x (.inr rfl) (hrf rfl)
        omega
      have hinc : increaseDeposit { w.c with staking := some { si with busy := false } } x =
          .ok { w.c with staking := some ⟨si.pool, false, si.deposit + x⟩ } := by
        simp only [increaseDeposit, bind_ok, selected_ok, addU128_ok, pure_ok]
        exact ⟨_, rfl, _, ⟨hlt, rfl⟩, rfl⟩
      rw [if_pos rfl, hinc]
      exact ⟨_, _, rfl, .inl ⟨_, rfl, rfl, rfl⟩⟩
    | false => exact ⟨_, _, rfl, .inl ⟨_, rfl, rfl, rfl⟩⟩
  | onWithdraw x =>
    simp only [exec, hpay, ok_bind, execCallback, onWithdraw, hself, hps, hset]
    cases b <;> exact ⟨_, _, rfl, .inl ⟨_, rfl, rfl, rfl⟩⟩
  | onStake x =>
    simp only [exec, hpay, ok_bind, execCallback, onStakeLike, hself, hps, hset]
    exact ⟨_, _, rfl, .inl ⟨_, rfl, rfl, rfl⟩⟩
  | onUnstake x =>
    simp only [exec, hpay, ok_bind, execCallback, onStakeLike, hself, hps, hset]
    exact ⟨_, _, rfl, .inl ⟨_, rfl, rfl, rfl⟩⟩
  | onUnstakeAll =>
    simp only [exec, hpay, ok_bind, execCallback, onStakeLike, hself, hps, hset]
    exact ⟨_, _, rfl, .inl ⟨_, rfl, rfl, rfl⟩⟩
  | onTotalBalance =>
    obtain ⟨n, hn, hlt⟩ := hview rfl
    simp only [exec, hpay, ok_bind, execCallback, onTotalBalance, hself, hbal n hn hlt, hset]
    exact ⟨_, _, rfl, .inl ⟨_, rfl, rfl, rfl⟩⟩
  | onUnstakedToWithdrawByOwner =>
    obtain ⟨n, hn, hlt⟩ := hview rfl
    simp only [exec, hpay, ok_bind, execCallback, onUnstakedToWithdrawByOwner, hself,
      hbal n hn hlt, hset, selected, hs]
    by_cases h0 : n > 0
    · rw [if_pos h0]; exact ⟨_, _, rfl, .inr ⟨_, _, rfl, rfl, rfl, rfl, rfl⟩⟩
    · rw [if_neg h0]; exact ⟨_, _, rfl, .inl ⟨_, rfl, rfl, rfl⟩⟩
  | onStakedToUnstake =>
    obtain ⟨n, hn, hlt⟩ := hview rfl
    obtain ⟨u, hv⟩ := hneed _ rfl
    simp only [exec, hpay, ok_bind, execCallback, onStakedToUnstake, hself,
      hbal n hn hlt, hset, selected, hs, hset2 _ _ _ hv]
    by_cases h0 : n > 0
    · rw [if_pos h0]; exact ⟨_, _, rfl, .inr ⟨_, _, rfl, rfl, rfl, rfl, rfl⟩⟩
    · rw [if_neg h0]; exact ⟨_, _, rfl, .inl ⟨_, rfl, rfl, rfl⟩⟩
  | onUnstakeForTermination x =>
    obtain ⟨u, hv⟩ := hneed _ rfl
    simp only [exec, hpay, ok_bind, execCallback, onUnstakeForTermination, hself, hps, hset,
      hset2 _ _ _ hv]
    exact ⟨_, _, rfl, .inl ⟨_, rfl, rfl, rfl⟩⟩
  | onUnstakedToWithdraw =>
    obtain ⟨n, hn, hlt⟩ := hview rfl
    obtain ⟨u, hv⟩ := hneed _ rfl
    simp only [exec, hpay, ok_bind, execCallback, onUnstakedToWithdraw, hself,
      hbal n hn hlt, hset, selected, hs, hset2 _ _ _ hv]
    by_cases h0 : n > 0
    · rw [if_pos h0]; exact ⟨_, _, rfl, .inr ⟨_, _, rfl, rfl, rfl, rfl, rfl⟩⟩
    · rw [if_neg h0]; exact ⟨_, _, rfl, .inl ⟨_, rfl, rfl, rfl⟩⟩
  | onWithdrawForTermination x =>
    obtain ⟨u, hv⟩ := hneed _ rfl
    simp only [exec, hpay, ok_bind, execCallback, onWithdrawForTermination, hself, hps, hset,
      hset2 _ _ _ hv]
    cases b <;> exact ⟨_, _, rfl, .inl ⟨_, rfl, rfl, rfl⟩⟩

/-- a failed unstake at the pool, about to be reported to the lockup -/
example : (run demoCfg demoStaked [.call "owner" 0 (.owner (.unstake 7)), .execute 0 .failed]).pend[0]?
    = some ⟨.poolUnstake "pool" 7, some (.onUnstake 7), .done .failed⟩ := by decide +kernel

end Verif.Lockup
