import Verif.System.Selected
import Verif.System.Props

/-!
# The lockup is never stuck in front of the staking pools of /repo

Helper lemmas for C89.
-/

namespace Verif.Lockup

open Verif

/-- Answers to views recorded in the list of receipts are `u128` numbers. -/
def ViewsOk (l : List Pending) : Prop :=
  ∀ q ∈ l, ∀ cb r, q.cb = some cb → cb.isView = true → q.phase = .done r →
    ∃ n, r = .balance n ∧ n < two128

theorem viewsOk_erase {l : List Pending} (h : ViewsOk l) (i : Nat) : ViewsOk (l.eraseIdx i) :=
  fun q hq => h q (List.mem_of_mem_eraseIdx hq)

theorem viewsOk_eff {l : List Pending} (h : ViewsOk l) (eff : Option Eff) :
    ViewsOk (l ++ effPending eff) := by
  intro q hq cb r h1 h2 h3
  rcases List.mem_append.mp hq with hq | hq
  · exact h q hq cb r h1 h2 h3
  · cases eff with
    | none => simp [effPending] at hq
    | some e =>
      simp only [effPending, List.mem_singleton] at hq
      rw [hq] at h3
      cases h3

theorem viewsOk_step {cfg : Cfg} {w : World} (ev : Ev) (hne : ∀ i r, ev ≠ .execute i r)
    (h : ViewsOk w.pend) : ViewsOk (step cfg w ev).pend := by
  have hcase := step_case cfg w ev
  generalize step cfg w ev = w' at hcase
  cases hcase with
  | quiet ev w' h1 h2 => rw [h2]; exact h
  | owner who c c' eff => exact viewsOk_eff h eff
  | foundation who c c' eff => exact viewsOk_eff h eff
  | execNone i ext r hi => exact absurd rfl (hne _ _)
  | execSome i ext cb r hi => exact absurd rfl (hne _ _)
  | callbackOk i ext cb r c' eff hi hr => exact viewsOk_eff (viewsOk_erase h i) eff
  | callbackPanic i ext cb r hi hno => exact viewsOk_erase h i

/-- A successful deposit, not yet recorded, is backed. -/
theorem deposit_backed {w : World} (hS : SInv w) (hD : DInv w) {i : Nat} {ext : Ext} {x : Nat}
    {cb : Callback} {r : PResult} (hi : w.pend[i]? = some ⟨ext, some cb, .done r⟩)
    (hcb : cb = .onDeposit x ∨ cb = .onDepositAndStake x) (hr : r ≠ .failed) :
    knownDeposited w.c + x ≤ w.held + w.loss := by
  have hop : opN ⟨ext, some cb, .done r⟩ = 1 := by rcases hcb with rfl | rfl <;> rfl
  obtain ⟨h0, _⟩ := op_last hS hi hop
  obtain ⟨h1, h2⟩ := psum_rest_zero h0
  have h3 := hD.dep
  rw [psum_eraseIdx depOk hi, psum_eraseIdx wdOk hi] at h3
  have hok : (Phase.done r).ok = true := by cases r <;> first | rfl | exact absurd rfl hr
  have h4 : depOk ⟨ext, some cb, .done r⟩ = x := by
    rcases hcb with rfl | rfl <;> simp [depOk, hok]
  have h5 : wdOk ⟨ext, some cb, .done r⟩ = 0 := by rcases hcb with rfl | rfl <;> rfl
  omega

end Verif.Lockup

namespace Verif.System

open Verif

theorem sum_zero {K V : Type} [DecidableEq K] {m : UMap K V} {f : K → V → Nat}
    (h : ∀ k v, m.get k = some v → f k v = 0) : m.sum f = 0 := by
  have h1 : m.sum f ≤ m.sum (fun _ _ => 0) := UMap.sum_le_sum (fun k v hm => by
    rw [h k v (UMap.get_eq_some.mpr hm)])
  have h2 := UMap.sum_add m (fun _ _ => 0) (fun _ _ => 0)
  simp only [Nat.add_zero] at h2
  omega

/-- What is counted when only the selected pool is counted. -/
theorem atPools_sel {cfg : Cfg} {s : Sys} {si : Lockup.StakingInfo} {w : StakingPool.World}
    (hs : s.lk.c.staking = some si) (hw : s.pools.get si.pool = some w) :
    atPools cfg (sel s) s = worth cfg.lockup w := by
  unfold atPools
  have h1 := UMap.sum_remove s.pools si.pool
    (fun p w => if sel s p = true then worth cfg.lockup w else 0)
  have h2 : (s.pools.remove si.pool).sum
      (fun p w => if sel s p = true then worth cfg.lockup w else 0) = 0 := by
    refine sum_zero ?_
    intro k v hk
    rw [UMap.get_remove] at hk
    split at hk
    · cases hk
    · rename_i hne
      rw [if_neg]
      simp only [sel, hs, Option.map_some, decide_eq_true_eq, Option.some.injEq]
      exact fun e => hne (by rw [e])
  have h3 : sel s si.pool = true := by simp [sel, hs]
  simp only [UMap.part, hw, h3, if_true] at h1
  omega

theorem Inv.loss {cfg : Cfg} {a : Lockup.NewArgs} {s : Sys} (h : Inv cfg a s) : s.lk.loss = 0 := by
  have hloss : (abs cfg all s).loss = 0 := by
    obtain ⟨w0, evs, g1, g2, g3⟩ := h.ref
    rw [g3]
    have hl : ∀ (l : List Lockup.Ev) (w : Lockup.World), (∀ ev ∈ l, ev.lossFree) →
        (Lockup.run cfg.lk w l).loss = w.loss := by
      intro l
      induction l with
      | nil => intro w _; rfl
      | cons ev t ih =>
        intro w hl
        have := ih (Lockup.step cfg.lk w ev) (fun x hx => hl x (by simp [hx]))
        exact this.trans (Lockup.loss_step (hl ev (by simp)))
    rw [hl evs w0 g2]
    obtain ⟨_, _, _, _, _, _, rfl⟩ := g1
    rfl
  exact hloss

/-- The selected pool is deployed. -/
theorem Inv.selected {cfg : Cfg} {a : Lockup.NewArgs} {s : Sys} (h : Inv cfg a s)
    {si : Lockup.StakingInfo} (hs : s.lk.c.staking = some si) :
    ∃ w, s.pools.get si.pool = some w :=
  contains_get.mp (h.approved _ ((Lockup.reachable_selInv h.reachable).sel si hs))

/-- The answer of the pool of /repo to a view of the lockup. -/
theorem view_answer {cfg : Cfg} {a : Lockup.NewArgs} {s : Sys} (h : Inv cfg a s)
    {ext : Lockup.Ext} {cb : Lockup.Callback}
    (hq : (⟨ext, some cb, .sent⟩ : Lockup.Pending) ∈ s.lk.pend) (hv : cb.isView = true)
    (hsup : ∀ p w, s.pools.get p = some w → worth cfg.lockup w < two128) (r : Lockup.PResult) :
    ∃ n, (runExt cfg s ⟨ext, some cb, .sent⟩ true r).1 = .balance n ∧ n < two128 := by
  have hcoh : Lockup.Coh s.lk.c ext (some cb) := (h.sinv all).coh _ hq
  have key : ∀ p view, callOf ext = none → viewOf ext = some (p, view) →
      (∀ w, StakingPool.Reachable (cfg.pool p) w → worth cfg.lockup w < two128 →
        ∃ n, view w.epoch w.pool cfg.lockup = .ok n ∧ n < two128) →
      ∃ n, (runExt cfg s ⟨ext, some cb, .sent⟩ true r).1 = .balance n ∧ n < two128 := by
    intro p view h1 h2 h3
    obtain ⟨w, hw⟩ := h.target hq (viewOf_pool h2)
    obtain ⟨n, h4, h5⟩ := h3 w (h.pools p w hw).2 (hsup p w hw)
    refine ⟨n, ?_, h5⟩
    simp only [runExt, h1, h2, hw, viewPool, h4]
    rfl
  have hu : ∀ (p : AccountId) w, StakingPool.Reachable (cfg.pool p) w →
      worth cfg.lockup w < two128 →
      ∃ n, StakingPool.getAccountUnstakedBalance w.epoch w.pool cfg.lockup = .ok n ∧
        n < two128 := by
    intro p w hw hl
    obtain ⟨s0, hi⟩ := StakingPool.reachable_inv hw
    rw [worth_eq hw] at hl
    exact ⟨_, StakingPool.getUnstaked_total hi.pool _ _, by omega⟩
  have hst : ∀ (p : AccountId) w, StakingPool.Reachable (cfg.pool p) w →
      worth cfg.lockup w < two128 →
      ∃ n, StakingPool.getAccountStakedBalance w.epoch w.pool cfg.lockup = .ok n ∧
        n < two128 := by
    intro p w hw hl
    obtain ⟨s0, hi⟩ := StakingPool.reachable_inv hw
    rw [worth_eq hw] at hl
    exact ⟨_, StakingPool.getStaked_total hi.pool _ _, by omega⟩
  have ht : ∀ (p : AccountId) w, StakingPool.Reachable (cfg.pool p) w →
      worth cfg.lockup w < two128 →
      ∃ n, StakingPool.getAccountTotalBalance w.epoch w.pool cfg.lockup = .ok n ∧
        n < two128 := by
    intro p w hw hl
    obtain ⟨s0, hi⟩ := StakingPool.reachable_inv hw
    rw [worth_eq hw] at hl
    refine ⟨_, ?_, hl⟩
    simp only [StakingPool.getAccountTotalBalance, bind_ok, addU128_ok]
    exact ⟨_, StakingPool.getAccount_total hi.pool _ _, hl, rfl⟩
  cases hcoh <;> first
    | exact absurd hv Bool.false_ne_true
    | exact key _ _ rfl rfl (ht _)
    | exact key _ _ rfl rfl (hu _)
    | exact key _ _ rfl rfl (hst _)

/-- The status is busy only while an operation is in flight, and the answers to views are usable. -/
structure Free (s : Sys) : Prop where
  op : Lockup.busyN s.lk.c ≤ Lockup.psum Lockup.opN s.lk.pend
  views : Lockup.ViewsOk s.lk.pend

theorem reported_eq {cfg : Cfg} {s : Sys} {p : AccountId} {w : StakingPool.World}
    (h : s.pools.get p = some w) : reported cfg s p = worth cfg.lockup w := by
  unfold reported worth
  rw [h]
  rfl

/-- What happens when the callback of an operation runs. -/
theorem callback_frees {cfg : Cfg} {a : Lockup.NewArgs} {s : Sys} (h : Inv cfg a s)
    (hD : Lockup.DInv (abs cfg (sel s) s)) (hF : Free s)
    {si : Lockup.StakingInfo} (hs : s.lk.c.staking = some si)
    (hsup : reported cfg s si.pool < two128) {i : Nat}
    {ext : Lockup.Ext} {cb : Lockup.Callback} {r : Lockup.PResult}
    (hi : s.lk.pend[i]? = some ⟨ext, some cb, .done r⟩) (hop : ext.isPoolOp = true) :
    (∃ si, (step cfg s (.callback i)).lk.c.staking = some si ∧ si.busy = false ∧
      Lockup.poolOps (step cfg s (.callback i)).lk = []) ∨
    (∃ ext' cb', cb.isView = true ∧ ext'.isPoolOp = true ∧ cb'.isView = false ∧
      (step cfg s (.callback i)).lk.pend =
        s.lk.pend.eraseIdx i ++ [⟨ext', some cb', .sent⟩]) := by
  have hmem := Lockup.mem_of_getElem?' hi
  obtain ⟨w, hw⟩ := h.selected hs
  have hl := h.loss
  have hc26 := Lockup.C26_returns_to_idle_partial h.reachable (i := i) (ext := ext) (cb := cb)
    (r := r) hi hop (fun hv => hF.views _ hmem cb r rfl hv rfl) (by
      intro x hcb hr
      have h1 : Lockup.knownDeposited s.lk.c + x ≤ atPools cfg (sel s) s + s.lk.loss :=
        Lockup.deposit_backed (h.sinv (sel s)) hD hi hcb hr
      rw [atPools_sel hs hw] at h1
      rw [reported_eq hw] at hsup
      show Lockup.knownDeposited s.lk.c + x < two128
      omega)
  have heq : Lockup.step cfg.lk (abs cfg all s) (.callback i) =
      { Lockup.step cfg.lk s.lk (.callback i) with held := atPools cfg all s } :=
    lk_step_held cfg.lk s.lk (atPools cfg all s) (.inr (.inl ⟨_, rfl⟩))
  simp only [heq] at hc26
  exact hc26

theorem free_step {cfg : Cfg} {a : Lockup.NewArgs} {s : Sys} (h : Inv cfg a s) (ev : Ev)
    (hc : ∀ who att p r, ev = .whitelist ⟨who, att, .addPool p⟩ →
      Whitelist.exec (Whitelist.mkEnv cfg.validAccountId who att) s.wl (.addPool p) = .ok r →
      s.pools.contains p = true)
    (hD : Lockup.DInv (abs cfg (sel s) s)) (hF : Free s)
    (hsup : ∀ p w, s.pools.get p = some w → worth cfg.lockup w < two128)
    (hlost : ∀ i r q, ev = .execute i false r → s.lk.pend[i]? = some q → viewOf q.ext = none) :
    Free (step cfg s ev) := by
  have same : ∀ s' : Sys, s'.lk = s.lk → Free s' := by
    intro s' he
    exact ⟨by rw [he]; exact hF.op, by rw [he]; exact hF.views⟩
  have quiet : ∀ e : Lockup.Ev, (∀ i r, e ≠ .execute i r) → (∀ i, e ≠ .callback i) →
      ∀ s' : Sys, s'.lk = Lockup.step cfg.lk s.lk e → Free s' := by
    intro e h1 h2 s' he
    refine ⟨?_, ?_⟩
    · rw [he]
      exact Lockup.notStuck_step e hF.op (fun i _ _ _ hc => absurd hc (h2 i))
    · rw [he]
      exact Lockup.viewsOk_step e h1 hF.views
  cases ev with
  | call who att c => exact quiet (.call who att c) (by simp) (by simp) _ rfl
  | arrive x => exact quiet (.arrive x) (by simp) (by simp) _ rfl
  | income x => exact quiet (.income x) (by simp) (by simp) _ rfl
  | tick x => exact quiet (.tick x) (by simp) (by simp) _ rfl
  | callback i =>
    have hviews : Lockup.ViewsOk (step cfg s (.callback i)).lk.pend :=
      Lockup.viewsOk_step (.callback i) (by simp) hF.views
    refine ⟨?_, hviews⟩
    by_cases hex : ∃ ext cb r, s.lk.pend[i]? = some ⟨ext, some cb, .done r⟩ ∧ ext.isPoolOp = true
    · obtain ⟨ext, cb, r, hi, hop⟩ := hex
      have hcoh : Lockup.Coh s.lk.c ext (some cb) :=
        (h.sinv all).coh _ (Lockup.mem_of_getElem?' hi)
      have hopN : Lockup.opN ⟨ext, some cb, .done r⟩ = 1 := by
        rw [Lockup.opN_eq (c := s.lk.c) hcoh, if_pos hop]
      have hlast : Lockup.busyN s.lk.c = 1 :=
        (Lockup.op_last (h.sinv (sel s)) (i := i) hi hopN).2
      obtain ⟨si, hs, _⟩ := Lockup.busyN_pos (c := s.lk.c) (by omega)
      obtain ⟨w, hw⟩ := h.selected hs
      rcases callback_frees h hD hF hs (by rw [reported_eq hw]; exact hsup _ _ hw) hi hop with ⟨si, h1, h2, _⟩ | ⟨ext', cb', _, h1, _, h2⟩
      · rw [Lockup.busyN_idle h1 h2]; exact Nat.zero_le _
      · have hS' := (inv_step h (.callback i) (by simp)).1.sinv all
        have hcoh := hS'.coh ⟨ext', some cb', .sent⟩ (by
          show _ ∈ (step cfg s (.callback i)).lk.pend
          rw [h2]; simp)
        have h3 := Lockup.opN_eq hcoh
        rw [h2, Lockup.psum_append]
        refine Nat.le_trans (Lockup.busyN_le _) (Nat.le_trans ?_ (Nat.le_add_left _ _))
        show 1 ≤ Lockup.opN ⟨ext', some cb', .sent⟩
        rw [h3, if_pos h1]
    · refine Lockup.notStuck_step (cfg := cfg.lk) (.callback i) hF.op ?_
      intro j ext cb r hj hi hop
      simp only [Lockup.Ev.callback.injEq] at hj
      subst hj
      refine absurd ⟨ext, cb, r, hi, ?_⟩ hex
      have hcoh : Lockup.Coh s.lk.c ext (some cb) :=
        (h.sinv all).coh _ (Lockup.mem_of_getElem?' hi)
      cases hcoh <;> first | rfl | cases hop
  | execute i ok r =>
    simp only [step, execute]
    split
    · rename_i ext cb hi
      have hq := Lockup.mem_of_getElem?' hi
      have hf := runExt_facts h hq ok r
      have hop := hF.op
      cases cb with
      | none =>
        simp only
        refine ⟨?_, Lockup.viewsOk_erase hF.views i⟩
        simp only [hf.c]
        rw [Lockup.psum_eraseIdx Lockup.opN hi] at hop
        have h2 : Lockup.opN ⟨ext, none, .sent⟩ = 0 := rfl
        omega
      | some cb =>
        simp only
        refine ⟨?_, ?_⟩
        · simp only [hf.c]
          have := Lockup.psum_set Lockup.opN
            (q := ⟨ext, some cb, .done (runExt cfg s ⟨ext, some cb, .sent⟩ ok r).1⟩) hi
          have h2 : Lockup.opN
              ⟨ext, some cb, .done (runExt cfg s ⟨ext, some cb, .sent⟩ ok r).1⟩ =
            Lockup.opN ⟨ext, some cb, .sent⟩ := rfl
          omega
        · intro q hq' cb' r' h1 h2 h3
          rcases List.mem_or_eq_of_mem_set hq' with hm | rfl
          · exact hF.views q hm cb' r' h1 h2 h3
          · simp only [Option.some.injEq] at h1
            subst h1
            simp only [Lockup.Phase.done.injEq] at h3
            subst h3
            cases ok with
            | true => exact view_answer h hq h2 hsup r
            | false =>
              have hnv := hlost i r _ rfl hi
              have hcoh : Lockup.Coh s.lk.c ext (some cb) := (h.sinv all).coh _ hq
              cases hcoh <;> first
                | exact absurd h2 Bool.false_ne_true
                | exact absurd hnv (by simp [viewOf])
    · exact hF
  | pool p ev => exact same _ (step_pool_lk cfg s p ev)
  | create p deployer owner key fee balance epoch =>
    exact same _ (step_create_lk cfg s p deployer owner key fee balance epoch)
  | whitelist ev => exact same _ rfl
  | vote who att c => exact same _ rfl
  | voteEpochs k => exact same _ rfl

end Verif.System
