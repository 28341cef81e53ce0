import Verif.Lockup.Locked

/-! # Deposits known to the contract, and coverage of the locked amount (honest pools) -/

namespace Verif.Lockup

open Verif

/-- Deposit executed successfully, not yet recorded by its callback. -/
def depOk (p : Pending) : Nat :=
  match p.cb with
  | some (.onDeposit a) => if p.phase.ok then a else 0
  | some (.onDepositAndStake a) => if p.phase.ok then a else 0
  | _ => 0

/-- Withdrawal executed successfully, not yet recorded by its callback. -/
def wdOk (p : Pending) : Nat :=
  match p.cb with
  | some (.onWithdraw a) => if p.phase.ok then a else 0
  | some (.onWithdrawForTermination a) => if p.phase.ok then a else 0
  | _ => 0

/-- Tokens of a receipt in flight that still count for the locked amount: deposits on their way to
the pool, payments of unvested tokens that are on their way or paid but not yet recorded. -/
def inflight (p : Pending) : Nat :=
  match p.cb with
  | some (.onDeposit a) => if p.phase = .sent then a else 0
  | some (.onDepositAndStake a) => if p.phase = .sent then a else 0
  | some (.onWithdrawUnvested a _) => if p.phase.bad then 0 else a
  | _ => 0

/-- The deposit the contract knows about is backed by the pools. -/
structure DInv (w : World) : Prop where
  dep : knownDeposited w.c + psum depOk w.pend ≤ w.held + w.loss + psum wdOk w.pend
  total : ∀ p ∈ w.pend, p.cb = some .onTotalBalance → ∀ v, p.phase = .done (.balance v) →
    v ≤ w.held + w.loss

/-- The locked amount is covered. -/
def Cov (w : World) : Prop :=
  lockedVal w.c w.now ≤ w.bal + w.incoming + w.held + w.loss + psum inflight w.pend

theorem zero_of_not_op {q : Pending} (h : opN q = 0) :
    depOk q = 0 ∧ wdOk q = 0 ∧ q.cb ≠ some .onTotalBalance := by
  obtain ⟨ext, cb, ph⟩ := q
  cases cb with
  | none => exact ⟨rfl, rfl, by simp⟩
  | some cb => cases cb <;> simp_all [opN, Callback.isOp, depOk, wdOk]

theorem zero_of_sent {q : Pending} (h : q.phase = .sent) : depOk q = 0 ∧ wdOk q = 0 := by
  obtain ⟨ext, cb, ph⟩ := q
  simp only at h; subst h
  cases cb with
  | none => exact ⟨rfl, rfl⟩
  | some cb => cases cb <;> simp [depOk, wdOk, Phase.ok]

theorem effPending_sent {eff : Option Eff} {q : Pending} (h : q ∈ effPending eff) :
    q.phase = .sent := by
  cases eff with
  | none => simp [effPending] at h
  | some f => simp [effPending] at h; rw [h]

theorem psum_rest_zero {l : List Pending} (h : psum opN l = 0) :
    psum depOk l = 0 ∧ psum wdOk l = 0 :=
  ⟨psum_zero_of_all (fun q hq => (zero_of_not_op (all_zero_of_psum h q hq)).1),
   psum_zero_of_all (fun q hq => (zero_of_not_op (all_zero_of_psum h q hq)).2.1)⟩

/-! ## Deposits -/

theorem dinv_commit {w : World} {att : Nat} {c' : Lockup} {eff : Option Eff}
    (h1 : knownDeposited c' + psum depOk w.pend ≤ w.held + w.loss + psum wdOk w.pend)
    (h2 : ∀ p ∈ w.pend, p.cb = some .onTotalBalance → ∀ v, p.phase = .done (.balance v) →
      v ≤ w.held + w.loss) : DInv (commit w att c' eff) := by
  have h3 : psum depOk (effPending eff) = 0 :=
    psum_zero_of_all (fun q hq => (zero_of_sent (effPending_sent hq)).1)
  have h4 : psum wdOk (effPending eff) = 0 :=
    psum_zero_of_all (fun q hq => (zero_of_sent (effPending_sent hq)).2)
  constructor
  · show knownDeposited c' + psum depOk (w.pend ++ effPending eff) ≤
      w.held + w.loss + psum wdOk (w.pend ++ effPending eff)
    rw [psum_append, psum_append]; omega
  · intro p hp hcb v hv
    rcases List.mem_append.mp hp with hp | hp
    · exact h2 p hp hcb v hv
    · rw [effPending_sent hp] at hv; cases hv

theorem known_some {c : Lockup} {si : StakingInfo} (h : c.staking = some si) :
    knownDeposited c = si.deposit := by simp [knownDeposited, h]

theorem foundationRel_known {e : Env} {s s' : Lockup} {c : FoundationCall} {eff : Option Eff}
    (h : FoundationRel e s c s' eff) : knownDeposited s' = knownDeposited s := by
  cases h with
  | terminate => rfl
  | prepareUnstake si u h1 => simp [knownDeposited, h1]
  | prepareWithdraw si u h1 => simp [knownDeposited, h1]
  | withdraw => rfl

theorem dinv_cb {w : World} {i : Nat} {ext : Ext} {cb : Callback} {r : PResult}
    {c' : Lockup} {eff : Option Eff} (hS : SInv w) (hD : DInv w)
    (hi : w.pend[i]? = some ⟨ext, some cb, .done r⟩) (h : CbRel w.c r cb c' eff) :
    DInv (commit { w with pend := w.pend.eraseIdx i } 0 c' eff) := by
  have hmem := mem_of_getElem?' hi
  have hdep := hD.dep
  rw [psum_eraseIdx depOk hi, psum_eraseIdx wdOk hi] at hdep
  have htot : ∀ p ∈ w.pend.eraseIdx i, p.cb = some .onTotalBalance →
      ∀ v, p.phase = .done (.balance v) → v ≤ w.held + w.loss :=
    fun p hp => hD.total p (mem_of_mem_eraseIdx' hp)
  refine dinv_commit ?_ htot
  show knownDeposited c' + psum depOk (w.pend.eraseIdx i) ≤
    w.held + w.loss + psum wdOk (w.pend.eraseIdx i)
  have same : knownDeposited c' = knownDeposited w.c →
      wdOk ⟨ext, some cb, .done r⟩ = 0 →
      knownDeposited c' + psum depOk (w.pend.eraseIdx i) ≤
        w.held + w.loss + psum wdOk (w.pend.eraseIdx i) := by
    intro h1 h2; omega
  have op : opN ⟨ext, some cb, .done r⟩ = 1 →
      psum depOk (w.pend.eraseIdx i) = 0 ∧ psum wdOk (w.pend.eraseIdx i) = 0 :=
    fun h1 => psum_rest_zero (op_last hS hi h1).1
  cases h with
  | whitelist p h1 h2 h3 =>
    apply same
    · simp [knownDeposited, h2]
    · rfl
  | depositOk _ a si hcb h1 h2 h3 =>
    have hk := known_some h2
    have hd : depOk ⟨ext, some cb, .done r⟩ = a := by
      rcases hcb with rfl | rfl <;> simp [depOk, Phase.ok, h1]
    have hw : wdOk ⟨ext, some cb, .done r⟩ = 0 := by rcases hcb with rfl | rfl <;> rfl
    have : knownDeposited (withDeposit w.c si (si.deposit + a)) = si.deposit + a := rfl
    omega
  | depositFailed _ a si hcb h1 h2 =>
    apply same
    · rw [known_some h2]; rfl
    · rcases hcb with rfl | rfl <;> rfl
  | withdrawOk a si h1 h2 =>
    obtain ⟨h3, h4⟩ := op rfl
    have hk := known_some h2
    have hd : wdOk ⟨ext, some (.onWithdraw a), .done r⟩ = a := by simp [wdOk, Phase.ok, h1]
    have : knownDeposited (withDeposit w.c si (si.deposit - a)) = si.deposit - a := rfl
    omega
  | withdrawFailed a si h1 h2 =>
    apply same
    · rw [known_some h2]; rfl
    · simp [wdOk, Phase.ok, h1]
  | stakeLike _ si hcb h2 =>
    apply same
    · rw [known_some h2]; rfl
    · rcases hcb with ⟨a, rfl⟩ | ⟨a, rfl⟩ | rfl <;> rfl
  | pollYes t h1 h2 h3 => exact same rfl rfl
  | pollNo h1 h2 => exact same rfl rfl
  | total n si h1 h2 h3 =>
    obtain ⟨h4, h5⟩ := op rfl
    subst h1
    have := hD.total _ hmem rfl n rfl
    have hk : knownDeposited (withDeposit w.c si n) = n := rfl
    omega
  | unstakedSome n si h1 h2 h3 h4 => exact same rfl rfl
  | unstakedNone si h1 h2 => exact same (by rw [known_some h2]; rfl) rfl
  | tStakedSome n si h1 h2 h3 h4 => exact same rfl rfl
  | tStakedNone si u old h1 h2 h3 => exact same (by rw [known_some h2]; rfl) rfl
  | tUnstake a si u old h1 h2 => exact same (by rw [known_some h1]; rfl) rfl
  | tUnstakedSome n si h1 h2 h3 h4 => exact same rfl rfl
  | tUnstakedNone si u old h1 h2 h3 => exact same (by rw [known_some h2]; rfl) rfl
  | tWithdrawOk a si u old h1 h2 h3 =>
    obtain ⟨h4, h5⟩ := op rfl
    have hk := known_some h2
    have hd : wdOk ⟨ext, some (.onWithdrawForTermination a), .done r⟩ = a := by
      simp [wdOk, Phase.ok, h1]
    have : knownDeposited { withDeposit w.c si (si.deposit - a) with
      vesting := .terminating u .readyToWithdraw } = si.deposit - a := rfl
    omega
  | tWithdrawFailed a si u old h1 h2 h3 =>
    apply same
    · rw [known_some h2]; rfl
    · simp [wdOk, Phase.ok, h1]
  | paidSome a rc => exact same rfl rfl
  | paidAll a rc => exact same rfl rfl
  | paidFailed a rc => exact same rfl rfl

/-- The callbacks of withdrawals never panic. -/
theorem withdraw_callback_ok {cfg : Cfg} {w w' : World} {i : Nat} {ext : Ext} {cb : Callback}
    {r : PResult} (hS : SInv w) (hi : w.pend[i]? = some ⟨ext, some cb, .done r⟩)
    (hcb : (∃ a, cb = .onWithdraw a) ∨ ∃ a, cb = .onWithdrawForTermination a) :
    ∃ c', exec (mkEnv cfg w' cfg.self 0 (some r)) w.c (.callback cb) = .ok (c', none) := by
  have hmem := mem_of_getElem?' hi
  have hop : opN ⟨ext, some cb, .done r⟩ = 1 := by
    rcases hcb with ⟨a, rfl⟩ | ⟨a, rfl⟩ <;> rfl
  obtain ⟨si, hsi, _⟩ := busyN_pos (c := w.c) (by rw [(op_last hS hi hop).2]; exact Nat.one_pos)
  rcases hcb with ⟨a, rfl⟩ | ⟨a, rfl⟩
  · simp only [exec, execCallback, onWithdraw, bind_ok, notPayable_ok, assertSelf_ok,
      isPromiseSuccess_ok, setBusy_ok]
    cases hr : r.isOk with
    | true =>
      refine ⟨withDeposit w.c si (si.deposit - a), (), rfl, (), rfl, true, ⟨r, rfl, hr.symm⟩, _,
        ⟨si, hsi, rfl⟩, ?_⟩
      simp only [if_true, decreaseDeposit, bind_ok, selected_ok, pure_ok, Prod.mk.injEq]
      exact ⟨_, ⟨_, rfl, rfl⟩, rfl, trivial⟩
    | false =>
      refine ⟨withDeposit w.c si si.deposit, (), rfl, (), rfl, false, ⟨r, rfl, hr.symm⟩, _,
        ⟨si, hsi, rfl⟩, ?_⟩
      rw [if_neg (by simp)]; rfl
  · obtain ⟨u, hv⟩ := hS.need _ hmem _ _ rfl rfl
    simp only [exec, execCallback, onWithdrawForTermination, bind_ok, notPayable_ok, assertSelf_ok,
      isPromiseSuccess_ok, setBusy_ok]
    cases hr : r.isOk with
    | true =>
      refine ⟨{ withDeposit w.c si (si.deposit - a) with
        vesting := .terminating u .readyToWithdraw }, (), rfl, (), rfl, true, ⟨r, rfl, hr.symm⟩, _,
        ⟨si, hsi, rfl⟩, ?_⟩
      simp only [if_true, decreaseDeposit, bind_ok, selected_ok, setTermination_ok, pure_ok,
        Prod.mk.injEq]
      exact ⟨_, ⟨u, _, hv, rfl⟩, _, ⟨_, rfl, rfl⟩, rfl, trivial⟩
    | false =>
      refine ⟨{ withDeposit w.c si si.deposit with
        vesting := .terminating u .everythingUnstaked }, (), rfl, (), rfl, false,
        ⟨r, rfl, hr.symm⟩, _, ⟨si, hsi, rfl⟩, ?_⟩
      rw [if_neg (by simp)]
      simp only [bind_ok, setTermination_ok, pure_ok, Prod.mk.injEq]
      exact ⟨_, ⟨u, _, hv, rfl⟩, rfl, trivial⟩

/-- Money moved by executing a receipt. -/
theorem runExt_money {cfg : Cfg} {w : World} {ext : Ext} {cb : Option Callback} {r : PResult}
    {c : Lockup} (hon : cfg.honestPools = true) (hc : Coh c ext cb) :
    let x := runExt cfg w ⟨ext, cb, .sent⟩ r
    x.2.held + wdOk ⟨ext, cb, .done x.1⟩ = w.held + depOk ⟨ext, cb, .done x.1⟩ ∧
    w.incoming + w.held + inflight ⟨ext, cb, .sent⟩ ≤
      x.2.incoming + x.2.held + inflight ⟨ext, cb, .done x.1⟩ ∧
    (cb = some .onTotalBalance → ∀ v, x.1 = .balance v → v ≤ x.2.held) := by
  have hok : ∀ {r : PResult}, ¬ r = .failed → r.isOk = true := by
    intro r h; cases r <;> simp_all [PResult.isOk]
  cases hc
  case deposit p a =>
    simp only [runExt]
    by_cases h : r = .failed
    · simp [h, depOk, wdOk, inflight, Phase.ok, PResult.isOk]; omega
    · simp [h, depOk, wdOk, inflight, Phase.ok, hok h]; omega
  case depositAndStake p a =>
    simp only [runExt]
    by_cases h : r = .failed
    · simp [h, depOk, wdOk, inflight, Phase.ok, PResult.isOk]; omega
    · simp [h, depOk, wdOk, inflight, Phase.ok, hok h]; omega
  case withdraw p a =>
    simp only [runExt]
    by_cases h : r = .failed
    · simp [h, depOk, wdOk, inflight, Phase.ok, PResult.isOk]
    · rw [if_neg h]
      by_cases h2 : a ≤ w.held
      · simp [h2, depOk, wdOk, inflight, Phase.ok, hok h]
      · simp [h2, hon, depOk, wdOk, inflight, Phase.ok, PResult.isOk]
  case tWithdraw p a =>
    simp only [runExt]
    by_cases h : r = .failed
    · simp [h, depOk, wdOk, inflight, Phase.ok, PResult.isOk]
    · rw [if_neg h]
      by_cases h2 : a ≤ w.held
      · simp [h2, depOk, wdOk, inflight, Phase.ok, hok h]
      · simp [h2, hon, depOk, wdOk, inflight, Phase.ok, PResult.isOk]
  case total p =>
    simp only [runExt]
    cases r with
    | balance v =>
      by_cases h : w.held < v
      · simp [h, hon, depOk, wdOk, inflight]
      · simp [h, depOk, wdOk, inflight]; omega
    | _ => simp [depOk, wdOk, inflight]
  case pay rc a =>
    simp only [runExt]
    by_cases h : r = .failed
    · simp [h, depOk, wdOk, inflight, Phase.bad, PResult.isOk]; omega
    · simp [h, depOk, wdOk, inflight, Phase.bad, hok h]
  case transfer rc a =>
    simp only [runExt]
    by_cases h : r = .failed
    · simp [h, depOk, wdOk, inflight]
    · simp [h, depOk, wdOk, inflight]
  case whitelist p =>
    simp only [runExt]
    split <;> simp [depOk, wdOk, inflight]
  case addKey p =>
    simp only [runExt]
    split <;> simp [depOk, wdOk, inflight]
  case poll p =>
    simp only [runExt]
    split <;> simp [depOk, wdOk, inflight]
  all_goals simp [runExt, depOk, wdOk, inflight]

theorem dinv_execute {cfg : Cfg} {w : World} {i : Nat} {r : PResult}
    (hon : cfg.honestPools = true) (hS : SInv w) (hD : DInv w) : DInv (execute cfg w i r) := by
  unfold execute
  split
  · rename_i ext cb hi
    have hmem := mem_of_getElem?' hi
    have hm := runExt_money (w := w) (r := r) hon (hS.coh _ hmem)
    obtain ⟨h1, h2, h3, h4, h5, _, h7⟩ := runExt_facts cfg w ⟨ext, cb, .sent⟩ r
    generalize runExt cfg w ⟨ext, cb, .sent⟩ r = x at hm h1 h2 h3 h4 h5 h7
    obtain ⟨r', w'⟩ := x
    simp only at hm h1 h2 h3 h4 h5 h7 ⊢
    obtain ⟨m1, m2, m3⟩ := hm
    have hdep := hD.dep
    obtain ⟨z1, z2⟩ := zero_of_sent (q := ⟨ext, cb, .sent⟩) rfl
    cases cb with
    | none =>
      simp only
      have e1 := psum_eraseIdx depOk hi
      have e2 := psum_eraseIdx wdOk hi
      have n1 : depOk ⟨ext, none, .done r'⟩ = 0 := rfl
      have n2 : wdOk ⟨ext, none, .done r'⟩ = 0 := rfl
      constructor
      · show knownDeposited w'.c + psum depOk (w.pend.eraseIdx i) ≤
          w'.held + w'.loss + psum wdOk (w.pend.eraseIdx i)
        rw [h1]; omega
      · intro p hp hcb v hv
        show v ≤ w'.held + w'.loss
        have := hD.total p (mem_of_mem_eraseIdx' hp) hcb v hv
        omega
    | some cb =>
      simp only
      have e1 := psum_set depOk (q := ⟨ext, some cb, .done r'⟩) hi
      have e2 := psum_set wdOk (q := ⟨ext, some cb, .done r'⟩) hi
      constructor
      · show knownDeposited w'.c + psum depOk (w.pend.set i _) ≤
          w'.held + w'.loss + psum wdOk (w.pend.set i _)
        rw [h1]; omega
      · intro p hp hcb v hv
        show v ≤ w'.held + w'.loss
        obtain ⟨j, hj⟩ := List.getElem?_of_mem hp
        by_cases hji : j = i
        · subst hji
          rw [List.getElem?_set_self (List.getElem?_eq_some_iff.mp hi).1] at hj
          cases hj
          simp only [Option.some.injEq, Phase.done.injEq] at hcb hv
          have := m3 (by rw [hcb]) v hv
          omega
        · rw [List.getElem?_set_ne (Ne.symm hji)] at hj
          have h8 := hD.total p (mem_of_getElem?' hj) hcb v hv
          -- the executed receipt is not an operation
          have h9 : opN ⟨ext, some cb, .sent⟩ = 0 := by
            by_contra hne
            have hone : opN ⟨ext, some cb, .sent⟩ = 1 := by
              have : opN ⟨ext, some cb, .sent⟩ ≤ 1 := by
                unfold opN; simp only; split <;> omega
              omega
            have hz := (op_last hS hi hone).1
            have hpm : p ∈ w.pend.eraseIdx i := by
              apply List.mem_iff_getElem?.mpr
              by_cases hlt : j < i
              · exact ⟨j, by rw [List.getElem?_eraseIdx_of_lt hlt]; exact hj⟩
              · refine ⟨j - 1, ?_⟩
                rw [List.getElem?_eraseIdx_of_ge (by omega)]
                rw [show j - 1 + 1 = j by omega]; exact hj
            exact (zero_of_not_op (all_zero_of_psum hz p hpm)).2.2 hcb
          have h10 := zero_of_not_op (q := ⟨ext, some cb, .done r'⟩) h9
          omega
  · exact hD

theorem dinv_erase {w : World} {i : Nat} {p : Pending} (hD : DInv w) (hi : w.pend[i]? = some p)
    (hp : wdOk p = 0) : DInv { w with pend := w.pend.eraseIdx i } := by
  have hdep := hD.dep
  rw [psum_eraseIdx depOk hi, psum_eraseIdx wdOk hi] at hdep
  constructor
  · show knownDeposited w.c + psum depOk (w.pend.eraseIdx i) ≤
      w.held + w.loss + psum wdOk (w.pend.eraseIdx i)
    omega
  · exact fun q hq => hD.total q (mem_of_mem_eraseIdx' hq)

theorem dinv_step {cfg : Cfg} {w : World} (ev : Ev) (hon : cfg.honestPools = true) (hS : SInv w)
    (hD : DInv w) : DInv (step cfg w ev) := by
  cases ev with
  | call who att c =>
    simp only [step]
    split
    · exact hD
    · rename_i hw
      rcases doCall_cases cfg w who att none c with ⟨hd, _⟩ | ⟨c', eff, hx, ha, hd⟩
      · rw [hd]; exact hD
      · rw [hd]
        cases c with
        | owner c =>
          obtain ⟨_, _, _, hr⟩ := execOwner_rel hx
          obtain ⟨_, _, _, _, _, h6, _⟩ := ownerRel_facts hr
          exact dinv_commit (by rw [h6]; exact hD.dep) hD.total
        | foundation c =>
          obtain ⟨_, _, hr⟩ := execFoundation_rel hx
          exact dinv_commit (by rw [foundationRel_known hr]; exact hD.dep) hD.total
        | callback c => exact absurd hx (callback_needs_self hw)
  | execute i r => exact dinv_execute hon hS hD
  | callback i =>
    simp only [step, callback]
    split
    · rename_i ext cb r hi
      rcases doCall_cases cfg { w with pend := w.pend.eraseIdx i } cfg.self 0 (some r)
        (.callback cb) with ⟨hd, hno⟩ | ⟨c', eff, hx, ha, hd⟩
      · rw [hd]
        apply dinv_erase hD hi
        have hz : ∀ a, cb ≠ .onWithdraw a ∧ cb ≠ .onWithdrawForTermination a := by
          intro a
          constructor <;> intro hcb
          · obtain ⟨c', hc'⟩ := withdraw_callback_ok (cfg := cfg)
              (w' := { w with pend := w.pend.eraseIdx i }) hS hi (.inl ⟨a, hcb⟩)
            exact hno _ _ hc' (Nat.zero_le _)
          · obtain ⟨c', hc'⟩ := withdraw_callback_ok (cfg := cfg)
              (w' := { w with pend := w.pend.eraseIdx i }) hS hi (.inr ⟨a, hcb⟩)
            exact hno _ _ hc' (Nat.zero_le _)
        cases cb <;> simp_all [wdOk]
      · rw [hd]
        simp only [exec, bind_ok] at hx
        obtain ⟨_, _, hx⟩ := hx
        obtain ⟨_, r', hr', hrel⟩ := execCallback_rel hx
        cases hr'
        exact dinv_cb hS hD hi hrel
    · exact hD
  | arrive x =>
    simp only [step]
    split
    · exact ⟨hD.dep, hD.total⟩
    · exact hD
  | income x => exact ⟨hD.dep, hD.total⟩
  | tick x => exact ⟨hD.dep, hD.total⟩
  | poolReward x =>
    have := hD.dep
    refine ⟨?_, fun p hp hcb v hv => ?_⟩
    · show knownDeposited w.c + psum depOk w.pend ≤ w.held + x + w.loss + psum wdOk w.pend
      omega
    · have := hD.total p hp hcb v hv
      show v ≤ w.held + x + w.loss
      omega
  | poolLoss x =>
    simp only [step]
    split
    · have := hD.dep
      refine ⟨?_, fun p hp hcb v hv => ?_⟩
      · show knownDeposited w.c + psum depOk w.pend ≤ w.held - x + (w.loss + x) + psum wdOk w.pend
        omega
      · have := hD.total p hp hcb v hv
        show v ≤ w.held - x + (w.loss + x)
        omega
    · exact hD

/-! ## Coverage -/

/-- While the pool is idle, the known deposit is backed. -/
theorem known_backed {w : World} (hS : SInv w) (hD : DInv w)
    (h : ∀ si, w.c.staking = some si → si.busy = false) :
    knownDeposited w.c ≤ w.held + w.loss := by
  have hb : busyN w.c = 0 := by
    cases hs : w.c.staking with
    | none => exact busyN_none hs
    | some si => exact busyN_idle hs (h si hs)
  have hops := hS.ops
  obtain ⟨h1, h2⟩ := psum_rest_zero (l := w.pend) (by omega)
  have := hD.dep
  omega

/-- A liquid amount leaves enough for the locked amount. -/
theorem liquid_bound {e : Env} {s : Lockup} {l a : Nat} (hw : WF s)
    (h : getLiquidOwnersBalance e s = .ok l) (ha : a ≤ l) :
    a ≤ e.accountBalance + knownDeposited s - lockedVal s e.now ∧
    a ≤ e.accountBalance - minBalanceForStorage := by
  simp only [getLiquidOwnersBalance, getOwnersBalance, bind_ok, addU128_ok, pure_ok,
    getLockedAmount_eq hw] at h
  obtain ⟨o, ⟨t, ⟨_, rfl⟩, l', h1, rfl⟩, rfl⟩ := h
  cases h1
  unfold getAccountBalance at ha
  omega

theorem cov_owner {cfg : Cfg} {w : World} {who : AccountId} {att : Nat} {c : OwnerCall}
    {c' : Lockup} {eff : Option Eff} (hS : SInv w) (hD : DInv w) (hg : Good cfg w.c) (hC : Cov w)
    (hx : execOwner (mkEnv cfg w who att none) w.c c = .ok (c', eff))
    (ha : effAttached eff ≤ w.bal + att) : Cov (commit w att c' eff) := by
  obtain ⟨h0, _, _, hr⟩ := execOwner_rel hx
  have hatt : att = 0 := h0
  subst hatt
  obtain ⟨h1, h2, _⟩ := ownerRel_facts hr
  unfold Cov at hC ⊢
  show lockedVal c' w.now ≤ w.bal + 0 - effAttached eff + w.incoming + w.held + w.loss +
    psum inflight (w.pend ++ effPending eff)
  rw [lockedVal_congr h1 h2, psum_append]
  have easy : effAttached eff ≤ psum inflight (effPending eff) →
      lockedVal w.c w.now ≤ w.bal + 0 - effAttached eff + w.incoming + w.held + w.loss +
        (psum inflight w.pend + psum inflight (effPending eff)) := by
    intro h; omega
  cases hr with
  | select p => exact easy (Nat.zero_le _)
  | unselect si => exact easy (Nat.zero_le _)
  | op c si ext cb h3 h4 h5 =>
    apply easy
    cases h5 <;> simp [effAttached, Ext.attached, effPending, inflight]
  | poll p => exact easy (Nat.zero_le _)
  | transfer a r l h3 h4 h5 h6 h7 =>
    have hk := known_backed hS hD h5
    obtain ⟨h8, h9⟩ := liquid_bound hg.1 h6 h7
    have e1 : (mkEnv cfg w who 0 none).accountBalance = w.bal := rfl
    have e2 : (mkEnv cfg w who 0 none).now = w.now := rfl
    rw [e1, e2] at h8
    have e3 : effAttached (some ⟨.transfer r a, none⟩) = a := rfl
    rw [e3]
    omega
  | addKey k => exact easy (Nat.zero_le _)

theorem cov_foundation {cfg : Cfg} {w : World} {who : AccountId} {att : Nat} {c : FoundationCall}
    {c' : Lockup} {eff : Option Eff} (hg : Good cfg w.c) (hC : Cov w)
    (hn : ∀ b, w.c.vesting ≠ .hash b)
    (hx : execFoundation (mkEnv cfg w who att none) w.c c = .ok (c', eff))
    (ha : effAttached eff ≤ w.bal + att) : Cov (commit w att c' eff) := by
  obtain ⟨h0, _, hr⟩ := execFoundation_rel hx
  have hatt : att = 0 := h0
  subst hatt
  have h1 := (foundation_locked rfl hg hr).2 hn
  unfold Cov at hC ⊢
  show lockedVal c' w.now ≤ w.bal + 0 - effAttached eff + w.incoming + w.held + w.loss +
    psum inflight (w.pend ++ effPending eff)
  rw [show lockedVal c' w.now = lockedVal w.c w.now from h1, psum_append]
  have easy : effAttached eff ≤ psum inflight (effPending eff) →
      lockedVal w.c w.now ≤ w.bal + 0 - effAttached eff + w.incoming + w.held + w.loss +
        (psum inflight w.pend + psum inflight (effPending eff)) := by
    intro h; omega
  apply easy
  cases hr <;> simp [effAttached, Ext.attached, effPending, inflight, Phase.bad]

theorem cov_cb {cfg : Cfg} {w : World} {i : Nat} {ext : Ext} {cb : Callback} {r : PResult}
    {c' : Lockup} {eff : Option Eff} (hS : SInv w) (hg : Good cfg w.c) (hC : Cov w)
    (hi : w.pend[i]? = some ⟨ext, some cb, .done r⟩) (h : CbRel w.c r cb c' eff) :
    Cov (commit { w with pend := w.pend.eraseIdx i } 0 c' eff) := by
  have h1 := (cb_locked hS hi hg h).2
  have h2 : inflight ⟨ext, some cb, .done r⟩ = paidAmt ⟨ext, some cb, .done r⟩ := by
    cases cb with
    | onWithdrawUnvested a rc =>
      simp only [inflight, paidAmt, payAmt, Phase.ok, Phase.bad]
      by_cases hb : r.isOk = true <;> simp [hb]
    | _ => rw [paidAmt_of_payAmt rfl]; rfl
  have h3 : effAttached eff = 0 := by cases h <;> rfl
  unfold Cov at hC ⊢
  rw [psum_eraseIdx inflight hi] at hC
  show lockedVal c' w.now ≤ w.bal + 0 - effAttached eff + w.incoming + w.held + w.loss +
    psum inflight (w.pend.eraseIdx i ++ effPending eff)
  rw [psum_append]
  omega

theorem cov_execute {cfg : Cfg} {w : World} {i : Nat} {r : PResult}
    (hon : cfg.honestPools = true) (hS : SInv w) (hC : Cov w) : Cov (execute cfg w i r) := by
  unfold execute
  split
  · rename_i ext cb hi
    have hmem := mem_of_getElem?' hi
    have hm := runExt_money (w := w) (r := r) hon (hS.coh _ hmem)
    obtain ⟨h1, h2, h3, h4, h5, _, h7⟩ := runExt_facts cfg w ⟨ext, cb, .sent⟩ r
    generalize runExt cfg w ⟨ext, cb, .sent⟩ r = x at hm h1 h2 h3 h4 h5 h7
    obtain ⟨r', w'⟩ := x
    simp only at hm h1 h2 h3 h4 h5 h7 ⊢
    obtain ⟨m1, m2, m3⟩ := hm
    unfold Cov at hC
    cases cb with
    | none =>
      have e1 := psum_eraseIdx inflight hi
      have n1 : inflight ⟨ext, none, .done r'⟩ = 0 := rfl
      show lockedVal w'.c w'.now ≤ w'.bal + w'.incoming + w'.held + w'.loss +
        psum inflight (w.pend.eraseIdx i)
      rw [h1, h3, h4]; omega
    | some cb =>
      have e1 := psum_set inflight (q := ⟨ext, some cb, .done r'⟩) hi
      show lockedVal w'.c w'.now ≤ w'.bal + w'.incoming + w'.held + w'.loss +
        psum inflight (w.pend.set i _)
      rw [h1, h3, h4]; omega
  · exact hC

/-- The callback of a payment never panics, so an erased receipt carried nothing. -/
theorem erased_inflight {cfg : Cfg} {w : World} {i : Nat} {ext : Ext} {cb : Callback}
    {r : PResult} (hS : SInv w) (hi : w.pend[i]? = some ⟨ext, some cb, .done r⟩)
    (hno : ∀ c' eff, exec (mkEnv cfg { w with pend := w.pend.eraseIdx i } cfg.self 0 (some r)) w.c
      (.callback cb) = .ok (c', eff) → ¬ effAttached eff ≤ w.bal + 0) :
    inflight ⟨ext, some cb, .done r⟩ = 0 := by
  cases cb with
  | onWithdrawUnvested a rc =>
    obtain ⟨c', hc'⟩ := pay_callback_ok (cfg := cfg) hS hi
    exact absurd (Nat.zero_le _) (hno _ _ hc')
  | _ => simp [inflight]

/-- The vesting schedule is not private. -/
def NoHash (v : Vesting) : Prop := ∀ b, v ≠ .hash b

theorem noHash_step {cfg : Cfg} {w : World} (ev : Ev) (h : NoHash w.c.vesting) :
    NoHash (step cfg w ev).c.vesting := by
  have hcommit : ∀ {w : World} {c' : Lockup} {eff att}, NoHash c'.vesting →
    NoHash (commit w att c' eff).c.vesting := fun h => h
  cases ev with
  | call who att c =>
    simp only [step]
    split
    · exact h
    · rename_i hw
      rcases doCall_cases cfg w who att none c with ⟨hd, _⟩ | ⟨c', eff, hx, ha, hd⟩
      · rw [hd]; exact h
      · rw [hd]
        cases c with
        | owner c =>
          obtain ⟨_, _, _, hr⟩ := execOwner_rel hx
          obtain ⟨h1, _⟩ := ownerRel_facts hr
          show NoHash c'.vesting
          rw [h1]; exact h
        | foundation c =>
          obtain ⟨_, _, hr⟩ := execFoundation_rel hx
          show NoHash c'.vesting
          cases hr <;> (intro b hb; cases hb)
        | callback c => exact absurd hx (callback_needs_self hw)
  | execute i r =>
    simp only [step, execute]
    split
    · rename_i ext cb hi
      obtain ⟨h1, _⟩ := runExt_facts cfg w ⟨ext, cb, .sent⟩ r
      generalize runExt cfg w ⟨ext, cb, .sent⟩ r = x at h1
      obtain ⟨r', w'⟩ := x
      simp only at h1 ⊢
      cases cb <;> (simp only; rw [h1]; exact h)
    · exact h
  | callback i =>
    simp only [step, callback]
    split
    · rename_i ext cb r hi
      rcases doCall_cases cfg { w with pend := w.pend.eraseIdx i } cfg.self 0 (some r)
        (.callback cb) with ⟨hd, hno⟩ | ⟨c', eff, hx, ha, hd⟩
      · rw [hd]; exact h
      · rw [hd]
        simp only [exec, bind_ok] at hx
        obtain ⟨_, _, hx⟩ := hx
        obtain ⟨_, r', hr', hrel⟩ := execCallback_rel hx
        show NoHash c'.vesting
        cases hrel <;> first | exact h | (intro b hb; cases hb)
    · exact h
  | arrive x => simp only [step]; split <;> exact h
  | income x => exact h
  | tick x => exact h
  | poolReward x => exact h
  | poolLoss x => simp only [step]; split <;> exact h

/-- The history variable is never reset. -/
theorem fixed_step {cfg : Cfg} {w : World} (ev : Ev)
    (h : (step cfg w ev).fixedUnvested = none) : w.fixedUnvested = none := by
  have hn : ∀ {old new : Vesting} {f : Option Nat}, newFixed old new f = none → f = none := by
    intro old new f h
    unfold newFixed at h
    split at h
    · cases h
    · exact h
  have hcall : ∀ (w : World) who att r c, (doCall cfg w who att r c).fixedUnvested = none →
      w.fixedUnvested = none := by
    intro w who att r c h
    rcases doCall_cases cfg w who att r c with ⟨hd, _⟩ | ⟨c', eff, hx, ha, hd⟩
    · rw [hd] at h; exact h
    · rw [hd] at h; exact hn h
  cases ev with
  | call who att c =>
    simp only [step] at h
    split at h
    · exact h
    · exact hcall _ _ _ _ _ h
  | execute i r =>
    simp only [step, execute] at h
    split at h
    · rename_i ext cb hi
      obtain ⟨_, _, _, _, h1, _⟩ := runExt_facts cfg w ⟨ext, cb, .sent⟩ r
      generalize runExt cfg w ⟨ext, cb, .sent⟩ r = x at h1 h
      obtain ⟨r', w'⟩ := x
      simp only at h1 h
      cases cb <;> (simp only at h; rw [← h1]; exact h)
    · exact h
  | callback i =>
    simp only [step, callback] at h
    split at h
    · have := hcall { w with pend := w.pend.eraseIdx i } _ _ _ _ h
      exact this
    · exact h
  | arrive x => simp only [step] at h; split at h <;> exact h
  | income x => exact h
  | tick x => exact h
  | poolReward x => exact h
  | poolLoss x => simp only [step] at h; split at h <;> exact h

/-- Coverage survives every event, except a termination that reveals a private schedule. -/
theorem cov_step {cfg : Cfg} {w : World} (ev : Ev) (hon : cfg.honestPools = true) (hS : SInv w)
    (hD : DInv w) (hg : Good cfg w.c) (hC : Cov w)
    (hn : NoHash w.c.vesting ∨ (step cfg w ev).fixedUnvested = none) : Cov (step cfg w ev) := by
  cases ev with
  | call who att c =>
    simp only [step] at hn ⊢
    split
    · exact hC
    · rename_i hw
      rw [if_neg hw] at hn
      rcases doCall_cases cfg w who att none c with ⟨hd, _⟩ | ⟨c', eff, hx, ha, hd⟩
      · rw [hd]; exact hC
      · rw [hd] at hn ⊢
        cases c with
        | owner c => exact cov_owner hS hD hg hC hx ha
        | foundation c =>
          refine cov_foundation hg hC ?_ hx ha
          rcases hn with hn | hn
          · exact hn
          · intro b hb
            obtain ⟨_, _, hr⟩ := execFoundation_rel hx
            cases hr with
            | terminate arg vs u st h1 h2 h3 h4 h5 =>
              simp [commit, newFixed, hb, Vesting.isTerminating] at hn
            | prepareUnstake si u h1 h2 h3 =>
              have : w.c.vesting = _ := h3
              rw [hb] at this; cases this
            | prepareWithdraw si u h1 h2 h3 =>
              have : w.c.vesting = _ := h3
              rw [hb] at this; cases this
            | withdraw r u h1 h2 h3 =>
              have : w.c.vesting = _ := h1
              rw [hb] at this; cases this
        | callback c => exact absurd hx (callback_needs_self hw)
  | execute i r => exact cov_execute hon hS hC
  | callback i =>
    simp only [step, callback]
    split
    · rename_i ext cb r hi
      rcases doCall_cases cfg { w with pend := w.pend.eraseIdx i } cfg.self 0 (some r)
        (.callback cb) with ⟨hd, hno⟩ | ⟨c', eff, hx, ha, hd⟩
      · rw [hd]
        have h0 := erased_inflight hS hi hno
        unfold Cov at hC ⊢
        rw [psum_eraseIdx inflight hi] at hC
        show lockedVal w.c w.now ≤ w.bal + w.incoming + w.held + w.loss +
          psum inflight (w.pend.eraseIdx i)
        omega
      · rw [hd]
        simp only [exec, bind_ok] at hx
        obtain ⟨_, _, hx⟩ := hx
        obtain ⟨_, r', hr', hrel⟩ := execCallback_rel hx
        cases hr'
        exact cov_cb hS hg hC hi hrel
    · exact hC
  | arrive x =>
    simp only [step]
    unfold Cov at hC
    split
    · show lockedVal w.c w.now ≤ w.bal + x + (w.incoming - x) + w.held + w.loss +
        psum inflight w.pend
      omega
    · exact hC
  | income x =>
    unfold Cov at hC
    show lockedVal w.c w.now ≤ w.bal + x + w.incoming + w.held + w.loss + psum inflight w.pend
    omega
  | tick x =>
    unfold Cov at hC
    have := lockedVal_mono (t1 := w.now) (t2 := w.now + x) hg.1 (by omega)
    show lockedVal w.c (w.now + x) ≤ w.bal + w.incoming + w.held + w.loss + psum inflight w.pend
    omega
  | poolReward x =>
    unfold Cov at hC
    show lockedVal w.c w.now ≤ w.bal + w.incoming + (w.held + x) + w.loss + psum inflight w.pend
    omega
  | poolLoss x =>
    simp only [step]
    unfold Cov at hC
    split
    · show lockedVal w.c w.now ≤ w.bal + w.incoming + (w.held - x) + (w.loss + x) +
        psum inflight w.pend
      omega
    · exact hC

end Verif.Lockup
