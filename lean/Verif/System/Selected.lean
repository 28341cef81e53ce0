import Verif.System.Sim
import Verif.Lockup.Props4

/-! # What the lockup knows and what the selected pool reports; operations never get stuck -/

namespace Verif.Lockup

open Verif

/-- A step that changes the selection leaves nothing known and no operation in flight. -/
theorem selection_changes {cfg : Cfg} {w : World} (ev : Ev) :
    ((step cfg w ev).c.staking.map StakingInfo.pool = w.c.staking.map StakingInfo.pool) ∨
    (knownDeposited (step cfg w ev).c = 0 ∧ busyN (step cfg w ev).c = 0) := by
  cases hs : w.c.staking with
  | some si =>
    rcases C30_selection_not_overwritten (cfg := cfg) ev hs with ⟨si', h1, h2⟩ | ⟨h1, _⟩
    · left; rw [h1]; simp [h2]
    · right; exact ⟨by simp [knownDeposited, h1], busyN_none h1⟩
  | none =>
    have keep : ∀ o : Option StakingInfo, (o = none ↔ w.c.staking = none) →
        o.map StakingInfo.pool = none := by
      intro o h
      rw [h.mpr hs]; rfl
    have hcase := step_case cfg w ev
    generalize step cfg w ev = w' at hcase
    cases hcase with
    | quiet ev w' h1 => left; rw [h1, hs]
    | owner who c c' eff h1 h2 h3 h4 hr =>
      rcases ownerRel_staking hr with ⟨_, h5, _⟩ | ⟨_, h6⟩
      · left; show c'.staking.map _ = _; rw [h5]
      · left; exact keep _ h6
    | foundation who c c' eff h1 h2 h3 hr => left; exact keep _ (foundationRel_staking hr).2
    | execNone i ext r hi =>
      left; simp only [(runExt_facts cfg w ⟨ext, none, .sent⟩ r).1, hs]
    | execSome i ext cb r hi =>
      left; simp only [(runExt_facts cfg w ⟨ext, some cb, .sent⟩ r).1, hs]
    | callbackOk i ext cb r c' eff hi hr =>
      rcases cbRel_staking hr with ⟨_, p, _, _, h5⟩ | ⟨_, h6⟩
      · right
        exact ⟨by show knownDeposited c' = 0; simp [knownDeposited, h5], busyN_idle h5 rfl⟩
      · left; exact keep _ h6
    | callbackPanic i ext cb r hi => left; rw [hs]

/-- Without known deposit and operations in flight the deposits are trivially backed. -/
theorem dinv_trivial {w : World} (hS : SInv w) (h1 : knownDeposited w.c = 0) (h2 : busyN w.c = 0) :
    DInv w := by
  have hops := hS.ops
  have h0 : psum opN w.pend = 0 := by omega
  obtain ⟨h3, _⟩ := psum_rest_zero h0
  refine ⟨by omega, ?_⟩
  intro p hp hcb
  exact absurd hcb (zero_of_not_op (all_zero_of_psum h0 p hp)).2.2

/-- The status is busy only while an operation is in flight, as long as the callbacks of operations
do not panic. -/
theorem notStuck_step {cfg : Cfg} {w : World} (ev : Ev) (h : busyN w.c ≤ psum opN w.pend)
    (hcb : ∀ i ext cb r, ev = .callback i → w.pend[i]? = some ⟨ext, some cb, .done r⟩ →
      cb.isOp = true → ∃ c' eff, exec (mkEnv cfg { w with pend := w.pend.eraseIdx i } cfg.self 0
        (some r)) w.c (.callback cb) = .ok (c', eff) ∧ effAttached eff ≤ w.bal) :
    busyN (step cfg w ev).c ≤ psum opN (step cfg w ev).pend := by
  have hcase := step_case cfg w ev
  generalize step cfg w ev = w' at hcase
  cases hcase with
  | quiet ev w' h1 h2 => rw [h1, h2]; exact h
  | owner who c c' eff h1 h2 h3 h4 hr =>
    show busyN c' ≤ psum opN (w.pend ++ effPending eff)
    rw [psum_append]
    cases hr with
    | unselect si g1 g2 g3 => simp [busyN]
    | op c si ext cb g1 g2 g3 =>
      have h5 : psum opN (effPending (some ⟨ext, some cb⟩)) = 1 := by cases g3 <;> rfl
      rw [h5]
      exact Nat.le_trans (busyN_le _) (Nat.le_add_left _ _)
    | _ => exact Nat.le_trans h (Nat.le_add_right _ _)
  | foundation who c c' eff h1 h2 h3 hr =>
    show busyN c' ≤ psum opN (w.pend ++ effPending eff)
    rw [psum_append]
    have := busyN_le c'
    cases hr with
    | terminate => exact Nat.le_trans h (Nat.le_add_right _ _)
    | withdraw => exact Nat.le_trans h (Nat.le_add_right _ _)
    | prepareUnstake si u h1 =>
      refine Nat.le_trans this (Nat.le_trans ?_ (Nat.le_add_left _ _))
      exact Nat.le_refl 1
    | prepareWithdraw si u h1 =>
      refine Nat.le_trans this (Nat.le_trans ?_ (Nat.le_add_left _ _))
      exact Nat.le_refl 1
  | execNone i ext r hi =>
    show busyN (runExt cfg w ⟨ext, none, .sent⟩ r).2.c ≤ psum opN (w.pend.eraseIdx i)
    rw [(runExt_facts cfg w ⟨ext, none, .sent⟩ r).1]
    rw [psum_eraseIdx opN hi] at h
    have h2 : opN ⟨ext, none, .sent⟩ = 0 := rfl
    omega
  | execSome i ext cb r hi =>
    show busyN (runExt cfg w ⟨ext, some cb, .sent⟩ r).2.c ≤ psum opN (w.pend.set i _)
    rw [(runExt_facts cfg w ⟨ext, some cb, .sent⟩ r).1]
    have := psum_set opN (q := ⟨ext, some cb, .done (runExt cfg w ⟨ext, some cb, .sent⟩ r).1⟩) hi
    have h2 : opN ⟨ext, some cb, .done (runExt cfg w ⟨ext, some cb, .sent⟩ r).1⟩ =
      opN ⟨ext, some cb, .sent⟩ := rfl
    omega
  | callbackOk i ext cb r c' eff hi hr =>
    show busyN c' ≤ psum opN (w.pend.eraseIdx i ++ effPending eff)
    rw [psum_append]
    have hb := busyN_le c'
    rw [psum_eraseIdx opN hi] at h
    cases hr <;> first
      | exact Nat.zero_le _
      | exact Nat.le_trans hb (Nat.le_add_left _ _)
      | exact Nat.le_trans h (by simp [opN, Callback.isOp, effPending, psum])
  | callbackPanic i ext cb r hi hno =>
    show busyN w.c ≤ psum opN (w.pend.eraseIdx i)
    rw [psum_eraseIdx opN hi] at h
    cases ho : cb.isOp with
    | false =>
      have : opN ⟨ext, some cb, .done r⟩ = 0 := by simp [opN, ho]
      omega
    | true =>
      obtain ⟨c', eff, g1, g2⟩ := hcb i ext cb r rfl hi ho
      exact absurd (by omega) (hno c' eff g1)

end Verif.Lockup

namespace Verif.System

open Verif

/-- The selected pool. -/
def sel (s : Sys) : AccountId → Bool :=
  fun p => decide (s.lk.c.staking.map Lockup.StakingInfo.pool = some p)

theorem execute_sim {cfg : Cfg} {a : Lockup.NewArgs} {s : Sys} (h : Inv cfg a s) (i : Nat)
    (ok : Bool) (r : Lockup.PResult) (S : AccountId → Bool)
    (hS : ∀ q ∈ s.lk.pend, ∀ p, q.ext.pool? = some p → S p = true) :
    (execute cfg s i ok r).lk.c = s.lk.c ∧
    ∃ evs : List Lockup.Ev, abs cfg S (execute cfg s i ok r) = Lockup.run cfg.lk (abs cfg S s) evs := by
  unfold execute
  split
  · rename_i ext cb hi
    have hq := Lockup.mem_of_getElem?' hi
    obtain ⟨r', d, h1, h2⟩ := runExt_sim h hq ok r S (hS _ hq)
    have hf := runExt_facts h hq ok r
    have hi' : (abs cfg S s).pend[i]? = some ⟨ext, cb, .sent⟩ := hi
    generalize hs' : (runExt cfg s ⟨ext, cb, .sent⟩ ok r) = x at h1 h2 hf
    obtain ⟨r1, s1⟩ := x
    simp only at h1 h2 hf ⊢
    have habs1 : ∀ l : List Lockup.Pending,
        abs cfg S { s1 with lk := { s1.lk with pend := l } } =
          { abs cfg S s1 with pend := l } := fun _ => rfl
    cases cb with
    | none =>
      refine ⟨hf.c, [.execute i r', .poolReward d], ?_⟩
      rw [habs1, h2]
      simp only [Lockup.run, Lockup.step, Lockup.execute, hi']
      rfl
    | some cb =>
      refine ⟨hf.c, [.execute i r', .poolReward d], ?_⟩
      rw [habs1, h2, ← h1]
      simp only [Lockup.run, Lockup.step, Lockup.execute, hi']
      rfl
  · exact ⟨rfl, [], rfl⟩

theorem dinv_run {cfg : Lockup.Cfg} {w : Lockup.World} (evs : List Lockup.Ev)
    (hon : cfg.honestPools = true) (hS : Lockup.SInv w) (hD : Lockup.DInv w) :
    Lockup.DInv (Lockup.run cfg w evs) := by
  induction evs generalizing w with
  | nil => exact hD
  | cons ev t ih => exact ih (Lockup.sinv_step ev hS) (Lockup.dinv_step ev hon hS hD)

/-- The invariants of the lockup do not mention what pools hold. -/
theorem sinv_abs {cfg : Cfg} {S S' : AccountId → Bool} {s : Sys}
    (h : Lockup.SInv (abs cfg S s)) : Lockup.SInv (abs cfg S' s) :=
  ⟨h.coh, h.ops, h.need, h.pays, h.payLe, h.fix, h.paid, h.amt⟩

theorem Inv.sinv {cfg : Cfg} {a : Lockup.NewArgs} {s : Sys} (h : Inv cfg a s)
    (S : AccountId → Bool) : Lockup.SInv (abs cfg S s) :=
  sinv_abs (Lockup.reachable_sinv h.reachable)

theorem atPools_mono {cfg : Cfg} {S : AccountId → Bool} {s : Sys} {p : AccountId}
    {w w' : StakingPool.World} (hw : s.pools.get p = some w)
    (hle : worth cfg.lockup w ≤ worth cfg.lockup w') :
    ∃ d, abs cfg S { s with pools := s.pools.insert p w' } =
      Lockup.run cfg.lk (abs cfg S s) [.poolReward d] := by
  have := UMap.sum_insert s.pools p w' (fun p w => if S p = true then worth cfg.lockup w else 0)
  simp only [UMap.part, hw] at this
  have h1 : atPools cfg S { s with pools := s.pools.insert p w' } =
    (s.pools.insert p w').sum (fun p w => if S p = true then worth cfg.lockup w else 0) := rfl
  have h2 : atPools cfg S s =
    s.pools.sum (fun p w => if S p = true then worth cfg.lockup w else 0) := rfl
  refine ⟨atPools cfg S { s with pools := s.pools.insert p w' } - atPools cfg S s, ?_⟩
  simp only [Lockup.run, Lockup.step, abs, Lockup.World.mk.injEq, true_and, and_true]
  by_cases hp : S p = true
  · simp only [hp, if_true] at this
    omega
  · simp only [if_neg hp] at this
    omega

/-- The deposit the lockup knows is backed by the selected pool. -/
theorem selD_step {cfg : Cfg} {a : Lockup.NewArgs} {s : Sys} (h : Inv cfg a s) (ev : Ev)
    (hc : ∀ who att p r, ev = .whitelist ⟨who, att, .addPool p⟩ →
      Whitelist.exec (Whitelist.mkEnv cfg.validAccountId who att) s.wl (.addPool p) = .ok r →
      s.pools.contains p = true)
    (hD : Lockup.DInv (abs cfg (sel s) s)) :
    Lockup.DInv (abs cfg (sel (step cfg s ev)) (step cfg s ev)) := by
  have hinv' := (inv_step h ev hc).1
  -- it is enough to count the pool selected before
  have key : ∀ evs : List Lockup.Ev, abs cfg (sel s) (step cfg s ev) =
      Lockup.run cfg.lk (abs cfg (sel s) s) evs →
      ((step cfg s ev).lk.c.staking.map Lockup.StakingInfo.pool =
        s.lk.c.staking.map Lockup.StakingInfo.pool ∨
       (Lockup.knownDeposited (step cfg s ev).lk.c = 0 ∧ Lockup.busyN (step cfg s ev).lk.c = 0)) →
      Lockup.DInv (abs cfg (sel (step cfg s ev)) (step cfg s ev)) := by
    rintro evs he (hsel | ⟨h1, h2⟩)
    · have : sel (step cfg s ev) = sel s := by unfold sel; rw [hsel]
      rw [this, he]
      exact dinv_run evs rfl (h.sinv _) hD
    · exact Lockup.dinv_trivial (hinv'.sinv _) h1 h2
  have lkcase : ∀ e : Lockup.Ev, (step cfg s ev).lk = Lockup.step cfg.lk s.lk e →
      (step cfg s ev).pools = s.pools →
      ((∃ who att c, e = .call who att c) ∨ (∃ i, e = .callback i) ∨
      (∃ x, e = .arrive x) ∨ (∃ x, e = .income x) ∨ (∃ x, e = .tick x)) →
      Lockup.DInv (abs cfg (sel (step cfg s ev)) (step cfg s ev)) := by
    intro e h1 h2 he
    have hheld := lk_step_held cfg.lk s.lk (atPools cfg (sel s) s) he
    refine key [e] ?_ ?_
    · show abs cfg (sel s) (step cfg s ev) = Lockup.step cfg.lk (abs cfg (sel s) s) e
      have h3 : atPools cfg (sel s) (step cfg s ev) = atPools cfg (sel s) s := by
        unfold atPools; rw [h2]
      unfold abs
      rw [hheld, h1, h3]
    · rw [h1]; exact Lockup.selection_changes e
  cases ev with
  | call who att c => exact lkcase _ rfl rfl (.inl ⟨_, _, _, rfl⟩)
  | callback i => exact lkcase _ rfl rfl (.inr (.inl ⟨_, rfl⟩))
  | arrive x => exact lkcase _ rfl rfl (.inr (.inr (.inl ⟨_, rfl⟩)))
  | income x => exact lkcase _ rfl rfl (.inr (.inr (.inr (.inl ⟨_, rfl⟩))))
  | tick x => exact lkcase _ rfl rfl (.inr (.inr (.inr (.inr ⟨_, rfl⟩))))
  | execute i ok r =>
    obtain ⟨h1, evs, h2⟩ := execute_sim h i ok r (sel s) (by
      intro q hq p hp
      obtain ⟨si, h1, rfl⟩ := Lockup.reachable_target h.reachable q hq p hp
      have h2 : s.lk.c.staking = some si := h1
      unfold sel
      rw [h2]
      simp)
    exact key evs h2 (.inl (by show (execute cfg s i ok r).lk.c.staking.map _ = _; rw [h1]))
  | pool p ev =>
    cases hw : s.pools.get p with
    | none =>
      have : step cfg s (.pool p ev) = s := by simp only [step, hw]
      rw [this]; exact hD
    | some w =>
      have hpe : ¬ ev.isCallBy cfg.lockup → step cfg s (.pool p ev) =
          { s with pools := s.pools.insert p (StakingPool.step (cfg.pool p) w ev) } →
          Lockup.DInv (abs cfg (sel (step cfg s (.pool p ev))) (step cfg s (.pool p ev))) := by
        intro hn he
        obtain ⟨d, hd⟩ := atPools_mono (cfg := cfg) (S := sel s) hw
          (worth_other (h.pools p w hw).2 hn)
        refine key [.poolReward d] ?_ (.inl ?_)
        · rw [he]; exact hd
        · rw [he]
      cases ev with
      | call who att c =>
        by_cases hwho : who = cfg.lockup
        · have : step cfg s (.pool p (.call who att c)) = s := by
            simp only [step, hw, if_pos hwho]
          rw [this]; exact hD
        · exact hpe hwho (by simp only [step, hw, if_neg hwho])
      | _ => exact hpe (by simp [StakingPool.Ev.isCallBy]) (by simp only [step, hw])
  | create p deployer owner key' fee balance epoch =>
    have hcr : ∀ w, s.pools.get p = none →
        step cfg s (.create p deployer owner key' fee balance epoch) =
          { s with pools := s.pools.insert p w } →
        Lockup.DInv (abs cfg (sel (step cfg s (.create p deployer owner key' fee balance epoch)))
          (step cfg s (.create p deployer owner key' fee balance epoch))) := by
      intro w hnone he
      have := UMap.sum_insert s.pools p w
        (fun p w => if sel s p = true then worth cfg.lockup w else 0)
      simp only [UMap.part, hnone, Nat.add_zero] at this
      refine key [.poolReward (if sel s p = true then worth cfg.lockup w else 0)] ?_ (.inl ?_)
      · rw [he]
        simp only [Lockup.run, Lockup.step, abs, Lockup.World.mk.injEq, true_and, and_true]
        exact this
      · rw [he]
    by_cases hn : p = cfg.lockup ∨ s.pools.contains p = true
    · have : step cfg s (.create p deployer owner key' fee balance epoch) = s := by
        simp only [step, create, if_pos hn]
      rw [this]; exact hD
    · have hnone : s.pools.get p = none := by
        cases hg : s.pools.get p with
        | none => rfl
        | some w => exact absurd (.inr (contains_get.mpr ⟨w, hg⟩)) hn
      by_cases hb : StakingPool.guaranteeFund < balance ∧ balance < two128
      · cases hx : StakingPool.new (StakingPool.initEnv (cfg.pool p) deployer balance epoch) false
            owner key' fee with
        | ok y =>
          obtain ⟨q, effs⟩ := y
          exact hcr (StakingPool.initWorld q effs balance epoch) hnone (by simp only [step, create, if_neg hn, if_pos hb, hx])
        | error e =>
          have : step cfg s (.create p deployer owner key' fee balance epoch) = s := by
            simp only [step, create, if_neg hn, if_pos hb, hx]
          rw [this]; exact hD
      · have : step cfg s (.create p deployer owner key' fee balance epoch) = s := by
          simp only [step, create, if_neg hn, if_neg hb]
        rw [this]; exact hD
  | whitelist ev => exact hD
  | vote who att c => exact hD
  | voteEpochs k => exact hD

theorem reachable_selD {cfg : Cfg} {a : Lockup.NewArgs} {s : Sys} (h : Reachable cfg a s) :
    Lockup.DInv (abs cfg (sel s) s) := by
  obtain ⟨s0, evs, h0, hc, rfl⟩ := h
  have hi := started_inv h0
  have hD : Lockup.DInv (abs cfg (sel s0) s0) := by
    have hst := h0.lk
    obtain ⟨d, b, n, c, hb, hx, hw⟩ := h0.lk
    have hs : s0.lk.c.staking = none := by rw [hw]; exact (Lockup.new_ok hx).2.2.1
    exact Lockup.dinv_trivial (hi.sinv _) (by
      show Lockup.knownDeposited s0.lk.c = 0
      simp [Lockup.knownDeposited, hs]) (Lockup.busyN_none hs)
  clear h0
  induction evs generalizing s0 with
  | nil => exact hD
  | cons ev t ih => exact ih _ hc.2 (inv_step hi ev hc.1).1 (selD_step hi ev hc.1 hD)

end Verif.System
