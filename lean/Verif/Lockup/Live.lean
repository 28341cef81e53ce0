import Verif.Lockup.Props2

/-! # Running a termination to its end -/

namespace Verif.Lockup

open Verif

theorem set_last {l : List Pending} {p q : Pending} : (l ++ [p]).set l.length q = l ++ [q] := by
  induction l with
  | nil => rfl
  | cons x t ih => simp only [List.cons_append, List.length_cons, List.set_cons_succ, ih]

theorem eraseIdx_last {l : List Pending} {p : Pending} : (l ++ [p]).eraseIdx l.length = l := by
  induction l with
  | nil => rfl
  | cons x t ih => simp only [List.cons_append, List.length_cons, List.eraseIdx_cons_succ, ih]

theorem getElem?_last {l : List Pending} {p : Pending} : (l ++ [p])[l.length]? = some p := by
  simp

theorem step_call_ok {cfg : Cfg} {w : World} {who : AccountId} {c : Call} {c' : Lockup}
    {eff : Option Eff} (hw : who ≠ cfg.self)
    (hx : exec (mkEnv cfg w who 0 none) w.c c = .ok (c', eff)) (ha : effAttached eff ≤ w.bal) :
    step cfg w (.call who 0 c) = commit w 0 c' eff := by
  simp only [step]
  rw [if_neg hw]
  simp only [doCall, hx]
  rw [if_pos (by omega)]

theorem step_exec_last {cfg : Cfg} {w : World} {l : List Pending} {ext : Ext} {cb : Callback}
    {r : PResult} (hp : w.pend = l ++ [⟨ext, some cb, .sent⟩]) :
    step cfg w (.execute l.length r) =
      { (runExt cfg w ⟨ext, some cb, .sent⟩ r).2 with
        pend := l ++ [⟨ext, some cb, .done (runExt cfg w ⟨ext, some cb, .sent⟩ r).1⟩] } := by
  simp only [step, execute, hp, getElem?_last, set_last]

theorem step_cb_last {cfg : Cfg} {w : World} {l : List Pending} {ext : Ext} {cb : Callback}
    {r : PResult} {c' : Lockup} {eff : Option Eff} (hp : w.pend = l ++ [⟨ext, some cb, .done r⟩])
    (hx : exec (mkEnv cfg { w with pend := l } cfg.self 0 (some r)) w.c (.callback cb) =
      .ok (c', eff)) (ha : effAttached eff ≤ w.bal) :
    step cfg w (.callback l.length) = commit { w with pend := l } 0 c' eff := by
  simp only [step, callback, hp, getElem?_last, eraseIdx_last, doCall, hx]
  rw [if_pos (by simpa using ha)]

/-- The foundation prepares; the pool answers that `S` is staked; if it is not zero it unstakes. -/
def termUnstake (f : AccountId) (k S : Nat) : List Ev :=
  [.call f 0 (.foundation .terminationPrepareToWithdraw), .execute k (.balance S), .callback k] ++
    (if S = 0 then [] else [.execute k .unit, .callback k])

/-- The foundation prepares again; the pool answers that `N` is unstaked; if it is not zero it pays
out. -/
def termFetch (f : AccountId) (k N : Nat) : List Ev :=
  [.call f 0 (.foundation .terminationPrepareToWithdraw), .execute k (.balance N), .callback k] ++
    (if N = 0 then [] else [.execute k .unit, .callback k, .arrive N])

/-- The foundation withdraws to `r`. -/
def termPay (f : AccountId) (k : Nat) (r : AccountId) : List Ev :=
  [.call f 0 (.foundation (.terminationWithdraw r)), .execute k .unit, .callback k]

theorem exec_prepare {e : Env} {s : Lockup} {si : StakingInfo} {u : Nat} (h0 : e.attachedDeposit = 0)
    (hf : s.foundation = some e.predecessor) (hs : s.staking = some si) (hb : si.busy = false)
    {st st' : TStatus} {ext : AccountId → Ext} {cb : Callback}
    (hst : (st = .terminatedWithDeficit ∧ st' = .unstakingInProgress ∧ ext = .poolStakedBalance ∧
        cb = .onStakedToUnstake) ∨
      (st = .everythingUnstaked ∧ st' = .withdrawingFromPool ∧ ext = .poolUnstakedBalance ∧
        cb = .onUnstakedToWithdraw))
    (hv : s.vesting = .terminating u st) :
    exec e s (.foundation .terminationPrepareToWithdraw) =
      .ok ({ s with vesting := .terminating u st', staking := some ⟨si.pool, true, si.deposit⟩ },
        some ⟨ext si.pool, some cb⟩) := by
  have h1 : notPayable e = .ok () := by rw [notPayable_ok]; exact h0
  have h2 : assertFoundation e s = .ok () := by
    unfold assertFoundation; rw [hf]; simp [require_ok]
  have h3 : assertIdle s = .ok si := assertIdle_ok.mpr ⟨hs, hb⟩
  have h4 : terminationStatus s = some st := terminationStatus_some.mpr ⟨u, hv⟩
  simp only [exec, execFoundation, terminationPrepare, h1, h2, h3, ok_bind, h4]
  rcases hst with ⟨rfl, rfl, rfl, rfl⟩ | ⟨rfl, rfl, rfl, rfl⟩ <;>
    simp only [setTermination, hv, setBusy, hs] <;> rfl

theorem env_self (cfg : Cfg) (w : World) (r : PResult) :
    notPayable (mkEnv cfg w cfg.self 0 (some r)) = .ok () ∧
    assertSelf (mkEnv cfg w cfg.self 0 (some r)) = .ok () :=
  ⟨by rw [notPayable_ok]; rfl, by rw [assertSelf_ok]; rfl⟩

theorem callbackBalance_run (cfg : Cfg) (w : World) {n : Nat} (hn : n < two128) :
    callbackBalance (mkEnv cfg w cfg.self 0 (some (.balance n))) = .ok n := by
  simp only [callbackBalance, mkEnv, bind_ok, decodeU128_ok, pure_ok]
  exact ⟨(), hn, trivial⟩

/-- The unstaking stage leaves only the termination status changed. -/
theorem run_termUnstake {cfg : Cfg} {w : World} {f : AccountId} {si : StakingInfo} {u S : Nat}
    (hf : w.c.foundation = some f) (hfs : f ≠ cfg.self) (hs : w.c.staking = some si)
    (hb : si.busy = false) (hv : w.c.vesting = .terminating u .terminatedWithDeficit)
    (hS : S < two128) :
    run cfg w (termUnstake f w.pend.length S) =
      { w with c := { w.c with vesting := .terminating u .everythingUnstaked } } := by
  obtain ⟨⟨owner, info, vesting, wl, staking, fdn⟩, bal, now, pend, incoming, held, loss, paid, fx,
    qd, ap, pa, fk⟩ := w
  obtain ⟨pool, busy, dep⟩ := si
  simp only at hf hs hb hv
  subst hf hs hb hv
  have hx := exec_prepare (e := mkEnv cfg ⟨⟨owner, info, .terminating u .terminatedWithDeficit, wl,
    some ⟨pool, false, dep⟩, some f⟩, bal, now, pend, incoming, held, loss, paid, fx, qd, ap, pa,
    fk⟩ f 0 none) (s := ⟨owner, info, .terminating u .terminatedWithDeficit, wl,
    some ⟨pool, false, dep⟩, some f⟩) rfl rfl rfl rfl (.inl ⟨rfl, rfl, rfl, rfl⟩) rfl
  simp only [termUnstake, List.cons_append, List.nil_append, run]
  rw [step_call_ok hfs hx (Nat.zero_le _)]
  simp only [commit, effPending, effAttached, Ext.attached, newFixed, Vesting.isTerminating,
    effQueried, List.nil_append, Nat.add_zero, Nat.sub_zero]
  rw [step_exec_last rfl]
  simp only [runExt]
  obtain ⟨e1, e2⟩ := env_self cfg ⟨⟨owner, info, .terminating u .unstakingInProgress, wl,
      some ⟨pool, true, dep⟩, some f⟩, bal, now, pend, incoming, held, loss, paid, fx, qd, ap, pa,
      fk⟩ (.balance S)
  have e3 := callbackBalance_run cfg ⟨⟨owner, info, .terminating u .unstakingInProgress, wl,
      some ⟨pool, true, dep⟩, some f⟩, bal, now, pend, incoming, held, loss, paid, fx, qd, ap, pa,
      fk⟩ hS
  by_cases h0 : S = 0
  · have hxx : exec (mkEnv cfg ⟨⟨owner, info, .terminating u .unstakingInProgress, wl,
        some ⟨pool, true, dep⟩, some f⟩, bal, now, pend, incoming, held, loss, paid, fx, qd, ap, pa,
        fk⟩ cfg.self 0 (some (.balance S))) ⟨owner, info, .terminating u .unstakingInProgress, wl,
        some ⟨pool, true, dep⟩, some f⟩ (.callback .onStakedToUnstake) =
        .ok (⟨owner, info, .terminating u .everythingUnstaked, wl, some ⟨pool, false, dep⟩, some f⟩,
          none) := by
      simp only [exec, e1, ok_bind, execCallback, onStakedToUnstake, e3, e2]
      rw [if_neg (by omega)]
      rfl
    rw [step_cb_last rfl hxx (Nat.zero_le _), if_pos h0]
    simp only [run, commit, effPending, effAttached, newFixed, Vesting.isTerminating,
      effQueried, List.nil_append, Nat.add_zero, Nat.sub_zero, List.append_nil]
  · have hxx : exec (mkEnv cfg ⟨⟨owner, info, .terminating u .unstakingInProgress, wl,
        some ⟨pool, true, dep⟩, some f⟩, bal, now, pend, incoming, held, loss, paid, fx, qd, ap, pa,
        fk⟩ cfg.self 0 (some (.balance S))) ⟨owner, info, .terminating u .unstakingInProgress, wl,
        some ⟨pool, true, dep⟩, some f⟩ (.callback .onStakedToUnstake) =
        .ok (⟨owner, info, .terminating u .unstakingInProgress, wl, some ⟨pool, true, dep⟩, some f⟩,
          some ⟨.poolUnstake pool S, some (.onUnstakeForTermination S)⟩) := by
      simp only [exec, e1, ok_bind, execCallback, onStakedToUnstake, e3, e2]
      rw [if_pos (by omega)]
      rfl
    rw [step_cb_last rfl hxx (Nat.zero_le _), if_neg h0]
    simp only [run, commit, effPending, effAttached, Ext.attached, newFixed, Vesting.isTerminating,
      effQueried, List.nil_append, Nat.add_zero, Nat.sub_zero]
    rw [step_exec_last rfl]
    simp only [runExt]
    obtain ⟨g1, g2⟩ := env_self cfg ⟨⟨owner, info, .terminating u .unstakingInProgress, wl,
        some ⟨pool, true, dep⟩, some f⟩, bal, now, pend, incoming, held, loss, paid, fx, qd, ap, pa,
        fk⟩ .unit
    have hyy : exec (mkEnv cfg ⟨⟨owner, info, .terminating u .unstakingInProgress, wl,
        some ⟨pool, true, dep⟩, some f⟩, bal, now, pend, incoming, held, loss, paid, fx, qd, ap, pa,
        fk⟩ cfg.self 0 (some .unit)) ⟨owner, info, .terminating u .unstakingInProgress, wl,
        some ⟨pool, true, dep⟩, some f⟩ (.callback (.onUnstakeForTermination S)) =
        .ok (⟨owner, info, .terminating u .everythingUnstaked, wl, some ⟨pool, false, dep⟩, some f⟩,
          none) := by
      simp only [exec, g1, ok_bind, execCallback, onUnstakeForTermination, g2]
      rfl
    rw [step_cb_last rfl hyy (Nat.zero_le _)]
    simp only [commit, effPending, effAttached, newFixed, Vesting.isTerminating,
      effQueried, List.nil_append, Nat.add_zero, Nat.sub_zero, List.append_nil]

/-- The fetching stage moves `N` tokens from the pool to the account. -/
theorem run_termFetch {cfg : Cfg} {w : World} {f : AccountId} {si : StakingInfo} {u N : Nat}
    (hf : w.c.foundation = some f) (hfs : f ≠ cfg.self) (hs : w.c.staking = some si)
    (hb : si.busy = false) (hv : w.c.vesting = .terminating u .everythingUnstaked)
    (hN : N < two128) (hheld : N ≤ w.held) :
    run cfg w (termFetch f w.pend.length N) =
      { w with
        c := { w.c with vesting := .terminating u .readyToWithdraw,
                        staking := some ⟨si.pool, false, si.deposit - N⟩ }
        bal := w.bal + N
        held := w.held - N } := by
  obtain ⟨⟨owner, info, vesting, wl, staking, fdn⟩, bal, now, pend, incoming, held, loss, paid, fx,
    qd, ap, pa, fk⟩ := w
  obtain ⟨pool, busy, dep⟩ := si
  simp only at hf hs hb hv hheld
  subst hf hs hb hv
  have hx := exec_prepare (e := mkEnv cfg ⟨⟨owner, info, .terminating u .everythingUnstaked, wl,
    some ⟨pool, false, dep⟩, some f⟩, bal, now, pend, incoming, held, loss, paid, fx, qd, ap, pa,
    fk⟩ f 0 none) (s := ⟨owner, info, .terminating u .everythingUnstaked, wl,
    some ⟨pool, false, dep⟩, some f⟩) rfl rfl rfl rfl (.inr ⟨rfl, rfl, rfl, rfl⟩) rfl
  simp only [termFetch, List.cons_append, List.nil_append, run]
  rw [step_call_ok hfs hx (Nat.zero_le _)]
  simp only [commit, effPending, effAttached, Ext.attached, newFixed, Vesting.isTerminating,
    effQueried, List.nil_append, Nat.add_zero, Nat.sub_zero]
  rw [step_exec_last rfl]
  simp only [runExt]
  obtain ⟨e1, e2⟩ := env_self cfg ⟨⟨owner, info, .terminating u .withdrawingFromPool, wl,
      some ⟨pool, true, dep⟩, some f⟩, bal, now, pend, incoming, held, loss, paid, fx, qd, ap, pa,
      fk⟩ (.balance N)
  have e3 := callbackBalance_run cfg ⟨⟨owner, info, .terminating u .withdrawingFromPool, wl,
      some ⟨pool, true, dep⟩, some f⟩, bal, now, pend, incoming, held, loss, paid, fx, qd, ap, pa,
      fk⟩ hN
  by_cases h0 : N = 0
  · have hxx : exec (mkEnv cfg ⟨⟨owner, info, .terminating u .withdrawingFromPool, wl,
        some ⟨pool, true, dep⟩, some f⟩, bal, now, pend, incoming, held, loss, paid, fx, qd, ap, pa,
        fk⟩ cfg.self 0 (some (.balance N))) ⟨owner, info, .terminating u .withdrawingFromPool, wl,
        some ⟨pool, true, dep⟩, some f⟩ (.callback .onUnstakedToWithdraw) =
        .ok (⟨owner, info, .terminating u .readyToWithdraw, wl, some ⟨pool, false, dep⟩, some f⟩,
          none) := by
      simp only [exec, e1, ok_bind, execCallback, onUnstakedToWithdraw, e3, e2]
      rw [if_neg (by omega)]
      rfl
    rw [step_cb_last rfl hxx (Nat.zero_le _), if_pos h0]
    subst h0
    simp only [run, commit, effPending, effAttached, newFixed, Vesting.isTerminating,
      effQueried, List.nil_append, Nat.add_zero, Nat.sub_zero, List.append_nil]
  · have hxx : exec (mkEnv cfg ⟨⟨owner, info, .terminating u .withdrawingFromPool, wl,
        some ⟨pool, true, dep⟩, some f⟩, bal, now, pend, incoming, held, loss, paid, fx, qd, ap, pa,
        fk⟩ cfg.self 0 (some (.balance N))) ⟨owner, info, .terminating u .withdrawingFromPool, wl,
        some ⟨pool, true, dep⟩, some f⟩ (.callback .onUnstakedToWithdraw) =
        .ok (⟨owner, info, .terminating u .withdrawingFromPool, wl, some ⟨pool, true, dep⟩, some f⟩,
          some ⟨.poolWithdraw pool N, some (.onWithdrawForTermination N)⟩) := by
      simp only [exec, e1, ok_bind, execCallback, onUnstakedToWithdraw, e3, e2]
      rw [if_pos (by omega)]
      rfl
    rw [step_cb_last rfl hxx (Nat.zero_le _), if_neg h0]
    simp only [run, commit, effPending, effAttached, Ext.attached, newFixed, Vesting.isTerminating,
      effQueried, List.nil_append, Nat.add_zero, Nat.sub_zero]
    rw [step_exec_last rfl]
    simp only [runExt, reduceCtorEq, if_false, if_pos hheld]
    obtain ⟨g1, g2⟩ := env_self cfg ⟨⟨owner, info, .terminating u .withdrawingFromPool, wl,
        some ⟨pool, true, dep⟩, some f⟩, bal, now, pend, incoming + N, held - N, loss, paid, fx, qd,
        ap, pa, fk⟩ .unit
    have hyy : exec (mkEnv cfg ⟨⟨owner, info, .terminating u .withdrawingFromPool, wl,
        some ⟨pool, true, dep⟩, some f⟩, bal, now, pend, incoming + N, held - N, loss, paid, fx, qd,
        ap, pa, fk⟩ cfg.self 0 (some .unit)) ⟨owner, info, .terminating u .withdrawingFromPool, wl,
        some ⟨pool, true, dep⟩, some f⟩ (.callback (.onWithdrawForTermination N)) =
        .ok (⟨owner, info, .terminating u .readyToWithdraw, wl, some ⟨pool, false, dep - N⟩,
          some f⟩, none) := by
      simp only [exec, g1, ok_bind, execCallback, onWithdrawForTermination, g2]
      rfl
    rw [step_cb_last rfl hyy (Nat.zero_le _)]
    simp only [commit, effPending, effAttached, newFixed, Vesting.isTerminating,
      effQueried, List.nil_append, Nat.add_zero, Nat.sub_zero, List.append_nil, step]
    rw [if_pos (by omega)]
    simp only [Nat.add_sub_cancel]

/-- The paying stage completes the termination when the account holds enough. -/
theorem run_termPay {cfg : Cfg} {w : World} {f r : AccountId} {u : Nat}
    (hf : w.c.foundation = some f) (hfs : f ≠ cfg.self) (hr : cfg.validAccountId r = true)
    (hv : w.c.vesting = .terminating u .readyToWithdraw) (hu : 0 < u)
    (hlt : w.c.info.terminationWithdrawn + u < two128)
    (hbal : u + minBalanceForStorage ≤ w.bal) :
    (run cfg w (termPay f w.pend.length r)).c.vesting = .none ∧
    (run cfg w (termPay f w.pend.length r)).c.foundation = none ∧
    (run cfg w (termPay f w.pend.length r)).fixedUnvested = w.fixedUnvested ∧
    (run cfg w (termPay f w.pend.length r)).c.staking = w.c.staking ∧
    (run cfg w (termPay f w.pend.length r)).bal + u = w.bal := by
  obtain ⟨⟨owner, info, vesting, wl, staking, fdn⟩, bal, now, pend, incoming, held, loss, paid, fx,
    qd, ap, pa, fk⟩ := w
  simp only at hf hv hbal hlt
  subst hf hv
  have hmin : min u (getAccountBalance (mkEnv cfg ⟨⟨owner, info, .terminating u .readyToWithdraw, wl,
      staking, some f⟩, bal, now, pend, incoming, held, loss, paid, fx, qd, ap, pa, fk⟩ f 0 none)) =
      u := by
    show min u (bal + 0 - minBalanceForStorage) = u
    omega
  have hx : exec (mkEnv cfg ⟨⟨owner, info, .terminating u .readyToWithdraw, wl,
      staking, some f⟩, bal, now, pend, incoming, held, loss, paid, fx, qd, ap, pa, fk⟩ f 0 none)
      ⟨owner, info, .terminating u .readyToWithdraw, wl, staking, some f⟩
      (.foundation (.terminationWithdraw r)) =
      .ok (⟨owner, info, .terminating u .withdrawingFromAccount, wl, staking, some f⟩,
        some ⟨.transfer r u, some (.onWithdrawUnvested u r)⟩) := by
    simp only [exec, execFoundation, terminationWithdraw, bind_ok, notPayable_ok, require_ok,
      terminatedUnvested, hmin, pure_ok, Prod.mk.injEq]
    refine ⟨(), rfl, (), ?_, (), hr, (), rfl, (), hu, _, rfl, rfl, trivial⟩
    simp [assertFoundation, require_ok, mkEnv]
  simp only [termPay, run]
  rw [step_call_ok hfs hx (by show u ≤ bal; omega)]
  simp only [commit, effPending, effAttached, Ext.attached, newFixed, Vesting.isTerminating,
    effQueried, List.nil_append, Nat.add_zero]
  rw [step_exec_last rfl]
  simp only [runExt, reduceCtorEq, if_false]
  have hyy : ∀ inc pd, exec (mkEnv cfg ⟨⟨owner, info, .terminating u .withdrawingFromAccount, wl,
      staking, some f⟩, bal - u, now, pend, inc, held, loss, pd, fx, qd, ap, pa, fk⟩
      cfg.self 0 (some .unit)) ⟨owner, info, .terminating u .withdrawingFromAccount, wl, staking,
      some f⟩ (.callback (.onWithdrawUnvested u r)) =
      .ok (⟨owner, { info with terminationWithdrawn := info.terminationWithdrawn + u }, .none, wl,
        staking, none⟩, none) := by
    intro inc pd
    obtain ⟨g1, g2⟩ := env_self cfg ⟨⟨owner, info, .terminating u .withdrawingFromAccount, wl,
      staking, some f⟩, bal - u, now, pend, inc, held, loss, pd, fx, qd, ap, pa, fk⟩ .unit
    have h1 : isPromiseSuccess (mkEnv cfg ⟨⟨owner, info, .terminating u .withdrawingFromAccount, wl,
      staking, some f⟩, bal - u, now, pend, inc, held, loss, pd, fx, qd, ap, pa, fk⟩ cfg.self 0
      (some .unit)) = .ok true := rfl
    simp only [exec, g1, ok_bind, execCallback, onWithdrawUnvested, g2, h1, if_true, recordWithdrawn,
      addU128, if_pos hlt, terminatedUnvested, gt_iff_lt, Nat.lt_irrefl, if_false]
    rfl
  rw [step_cb_last rfl (hyy _ _) (Nat.zero_le _)]
  simp only [commit, effAttached, newFixed, Vesting.isTerminating, Nat.add_zero]
  exact ⟨trivial, trivial, trivial, trivial, by omega⟩

theorem fixed_mono {cfg : Cfg} (l : List Ev) (w : World)
    (h : (run cfg w l).fixedUnvested = none) : w.fixedUnvested = none := by
  induction l generalizing w with
  | nil => exact h
  | cons ev t ih => exact fixed_step ev (ih _ h)

/-- The statuses of a termination that need the staking pool. -/
def TStatus.needsPool : TStatus → Bool
  | .readyToWithdraw | .withdrawingFromAccount => false
  | _ => true

/-- While a termination needs the staking pool, one is selected. -/
def PoolSel (c : Lockup) : Prop :=
  ∀ u st, c.vesting = .terminating u st → st.needsPool = true → c.staking ≠ none

theorem poolSel_step {cfg : Cfg} {w : World} (ev : Ev) (h : PoolSel w.c) :
    PoolSel (step cfg w ev).c := by
  have hcase := step_case cfg w ev
  generalize step cfg w ev = w' at hcase
  cases hcase with
  | quiet ev w' h1 => rw [h1]; exact h
  | owner who c c' eff h1 h2 h3 h4 hr =>
    intro u st hv
    have : c'.vesting = .terminating u st := hv
    rw [(ownerRel_facts hr).1] at this
    rw [this] at h3; cases h3
  | foundation who c c' eff h1 h2 h3 hr =>
    intro u st hv hst
    show c'.staking ≠ none
    replace hv : c'.vesting = .terminating u st := hv
    cases hr with
    | terminate arg vs u' st' g1 g2 g3 g4 g5 =>
      simp only [Vesting.terminating.injEq] at hv
      obtain ⟨_, rfl⟩ := hv
      by_cases hd : 0 < u' - getAccountBalance (mkEnv cfg w who 0 none) ∧ w.c.staking.isSome = true
      · intro hc
        have h6 := hd.2
        have h7 : w.c.staking = none := hc
        rw [h7] at h6; cases h6
      · rw [if_neg hd] at g5; rw [g5] at hst; cases hst
    | prepareUnstake si u g1 => simp
    | prepareWithdraw si u g1 => simp
    | withdraw r u' g1 =>
      simp only [Vesting.terminating.injEq] at hv
      obtain ⟨_, rfl⟩ := hv
      cases hst
  | execNone i ext r hi =>
    have := (runExt_facts cfg w ⟨ext, none, .sent⟩ r).1
    simp only [this]; exact h
  | execSome i ext cb r hi =>
    have := (runExt_facts cfg w ⟨ext, some cb, .sent⟩ r).1
    simp only [this]; exact h
  | callbackOk i ext cb r c' eff hi hr =>
    intro u st hv hst
    show c'.staking ≠ none
    replace hv : c'.vesting = .terminating u st := hv
    cases hr with
    | whitelist => simp
    | depositOk => simp [withDeposit]
    | depositFailed => simp [withDeposit]
    | withdrawOk => simp [withDeposit]
    | withdrawFailed => simp [withDeposit]
    | stakeLike => simp [withDeposit]
    | pollYes => exact h u st hv hst
    | pollNo => exact h u st hv hst
    | total => simp [withDeposit]
    | unstakedSome => exact h u st hv hst
    | unstakedNone => simp [withDeposit]
    | tStakedSome => exact h u st hv hst
    | tStakedNone => simp [withDeposit]
    | tUnstake => simp [withDeposit]
    | tUnstakedSome => exact h u st hv hst
    | tUnstakedNone => simp [withDeposit]
    | tWithdrawOk => simp [withDeposit]
    | tWithdrawFailed => simp [withDeposit]
    | paidSome =>
      simp only [Vesting.terminating.injEq] at hv
      obtain ⟨_, rfl⟩ := hv
      cases hst
    | paidAll => cases hv
    | paidFailed =>
      simp only [Vesting.terminating.injEq] at hv
      obtain ⟨_, rfl⟩ := hv
      cases hst
  | callbackPanic i ext cb r hi => exact h

theorem reachable_poolSel {cfg : Cfg} {a : NewArgs} {w : World} (h : Reachable cfg a w) :
    PoolSel w.c := by
  obtain ⟨w0, evs, hs, rfl⟩ := h
  have h0 : PoolSel w0.c := by
    intro u st hv
    rw [argVesting_of_started hs] at hv
    unfold argVesting at hv
    split at hv <;> cases hv
  clear hs
  induction evs generalizing w0 with
  | nil => exact h0
  | cons ev t ih => exact ih _ (poolSel_step ev h0)

end Verif.Lockup
