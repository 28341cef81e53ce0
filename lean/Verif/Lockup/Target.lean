import Verif.Lockup.Props2

/-! # Receipts to staking pools go to the selected pool -/

namespace Verif.Lockup

open Verif

/-- The staking pool a receipt is addressed to. -/
def Ext.pool? : Ext → Option AccountId
  | .poolDeposit p _ | .poolDepositAndStake p _ | .poolWithdraw p _ | .poolStake p _
  | .poolUnstake p _ | .poolUnstakeAll p | .poolStakedBalance p | .poolUnstakedBalance p
  | .poolTotalBalance p => some p
  | _ => none

theorem pool?_isPoolOp {ext : Ext} {p : AccountId} (h : ext.pool? = some p) :
    ext.isPoolOp = true := by cases ext <;> simp_all [Ext.pool?, Ext.isPoolOp]

/-- Every unfinished receipt to a pool is addressed to the selected pool. -/
def TargetInv (w : World) : Prop :=
  ∀ q ∈ w.pend, ∀ p, q.ext.pool? = some p → ∃ si, w.c.staking = some si ∧ si.pool = p

theorem opShape_pool {b : Nat} {pool p : AccountId} {ext : Ext} {cb : Callback}
    (h : OpShape b pool ext cb) (hp : ext.pool? = some p) : p = pool := by
  cases h <;> simp_all [Ext.pool?]

theorem busy_zero {c : Lockup} (h : ∀ si, c.staking = some si → si.busy = false) :
    busyN c = 0 := by
  unfold busyN
  cases hs : c.staking with
  | none => rfl
  | some si => simp [h si hs]

theorem no_pool_ops {w : World} (hS : SInv w) (hb : busyN w.c = 0) :
    ∀ q ∈ w.pend, ∀ p, q.ext.pool? ≠ some p := by
  intro q hq p hp
  have h1 : psum opN w.pend = 0 := Nat.le_zero.mp (hb ▸ hS.ops)
  have h2 := all_zero_of_psum h1 q hq
  rw [opN_eq (hS.coh q hq), pool?_isPoolOp hp] at h2
  cases h2

theorem targetInv_step {cfg : Cfg} {w : World} (ev : Ev) (hS : SInv w) (h : TargetInv w) :
    TargetInv (step cfg w ev) := by
  have hcase := step_case cfg w ev
  generalize step cfg w ev = w' at hcase
  cases hcase with
  | quiet ev w' h1 h2 => unfold TargetInv; rw [h1, h2]; exact h
  | owner who c c' eff h1 h2 h3 h4 hr =>
    intro q hq p hp
    show ∃ si, c'.staking = some si ∧ si.pool = p
    rcases List.mem_append.mp hq with hm | hm
    · obtain ⟨si, h5, h6⟩ := h q hm p hp
      cases hr with
      | unselect si' a1 a2 a3 =>
        exact absurd hp (no_pool_ops hS (busy_zero (by rw [a1]; rintro _ ⟨⟩; exact a2)) q hm p)
      | op c si' ext cb a1 =>
        rw [a1] at h5; cases h5
        exact ⟨_, rfl, h6⟩
      | _ => exact ⟨si, h5, h6⟩
    · cases hr <;> simp only [effPending, List.mem_singleton, List.not_mem_nil] at hm
      all_goals try (subst hm; simp [Ext.pool?] at hp)
      rename_i si' ext cb a1 a2 a3 a4 a5
      have := opShape_pool a3 hp
      exact ⟨_, rfl, this.symm⟩
  | foundation who c c' eff h1 h2 h3 hr =>
    intro q hq p hp
    show ∃ si, c'.staking = some si ∧ si.pool = p
    rcases List.mem_append.mp hq with hm | hm
    · obtain ⟨si, h5, h6⟩ := h q hm p hp
      cases hr with
      | prepareUnstake si' u a1 => rw [a1] at h5; cases h5; exact ⟨_, rfl, h6⟩
      | prepareWithdraw si' u a1 => rw [a1] at h5; cases h5; exact ⟨_, rfl, h6⟩
      | _ => exact ⟨si, h5, h6⟩
    · cases hr with
      | terminate => simp [effPending] at hm
      | prepareUnstake si' u a1 =>
        simp only [effPending, List.mem_singleton] at hm
        subst hm
        exact ⟨_, rfl, by simpa [Ext.pool?] using hp⟩
      | prepareWithdraw si' u a1 =>
        simp only [effPending, List.mem_singleton] at hm
        subst hm
        exact ⟨_, rfl, by simpa [Ext.pool?] using hp⟩
      | withdraw =>
        simp only [effPending, List.mem_singleton] at hm
        subst hm
        simp [Ext.pool?] at hp
  | execNone i ext r hi =>
    intro q hq p hp
    show ∃ si, (runExt cfg w ⟨ext, none, .sent⟩ r).2.c.staking = some si ∧ _
    rw [(runExt_facts cfg w ⟨ext, none, .sent⟩ r).1]
    exact h q (mem_of_mem_eraseIdx' hq) p hp
  | execSome i ext cb r hi =>
    intro q hq p hp
    show ∃ si, (runExt cfg w ⟨ext, some cb, .sent⟩ r).2.c.staking = some si ∧ _
    rw [(runExt_facts cfg w ⟨ext, some cb, .sent⟩ r).1]
    rcases mem_set_cases hq with hq | rfl
    · exact h q hq p hp
    · exact h _ (mem_of_getElem?' hi) p hp
  | callbackOk i ext cb r c' eff hi hr =>
    intro q hq p hp
    show ∃ si, c'.staking = some si ∧ si.pool = p
    rcases List.mem_append.mp hq with hm | hm
    · obtain ⟨si, h5, h6⟩ := h q (mem_of_mem_eraseIdx' hm) p hp
      rcases cbRel_staking hr with ⟨h7, _⟩ | ⟨h7, h8⟩
      · rw [h7] at h5; cases h5
      · cases hc : c'.staking with
        | none => rw [h8.mp hc] at h5; cases h5
        | some si' =>
          obtain ⟨si0, h9, h10⟩ := h7 si' hc
          rw [h5] at h9; cases h9
          exact ⟨_, rfl, h10 ▸ h6⟩
    · cases hr <;> simp only [effPending, List.mem_singleton, List.not_mem_nil] at hm
      all_goals
        subst hm
        simp only [Ext.pool?, Option.some.injEq] at hp
        exact ⟨_, by assumption, hp⟩
  | callbackPanic i ext cb r hi =>
    intro q hq p hp
    exact h q (mem_of_mem_eraseIdx' hq) p hp

/-- In every reachable world the receipts to pools are addressed to the selected pool, which the
whitelist contract has approved. -/
theorem reachable_target {cfg : Cfg} {a : NewArgs} {w : World} (h : Reachable cfg a w) :
    TargetInv w := by
  obtain ⟨w0, evs, hs, rfl⟩ := h
  have h0 : TargetInv w0 := by
    obtain ⟨d, b, n, c, hb, hn, rfl⟩ := hs
    intro q hq; simp [initWorld] at hq
  have hS := started_sinv hs
  clear hs
  induction evs generalizing w0 with
  | nil => exact h0
  | cons ev t ih => exact ih _ (targetInv_step ev hS h0) (sinv_step ev hS)

theorem reachable_selInv {cfg : Cfg} {a : NewArgs} {w : World} (h : Reachable cfg a w) :
    SelInv w := by
  obtain ⟨w0, evs, hs, rfl⟩ := h
  exact selInv_run evs (started_sinv hs) (started_selInv hs)

/-- Only the owner's `select_staking_pool` asks the whitelist about a pool. -/
theorem queried_step {cfg : Cfg} {w : World} {ev : Ev} {p : AccountId}
    (h : p ∈ (step cfg w ev).queried) :
    p ∈ w.queried ∨ ev = .call w.c.owner 0 (.owner (.selectStakingPool p)) := by
  by_cases hn2 : p ∈ w.queried
  · exact .inl hn2
  right
  have hcase := step_case cfg w ev
  generalize step cfg w ev = w' at hcase h
  cases hcase with
  | quiet ev w' h1 h2 h3 => rw [h3] at h; exact absurd h hn2
  | owner who c c' eff h1 h2 h3 h4 hr =>
    rcases effQueried_owner hr with ⟨q, rfl, h5, _⟩ | ⟨h5, _⟩
    · simp only [commit, h5, List.mem_append, List.mem_singleton] at h
      rcases h with rfl | h
      · rw [h2]
      · exact absurd h hn2
    · simp only [commit, h5, List.nil_append] at h
      exact absurd h hn2
  | foundation who c c' eff h1 h2 h3 hr =>
    simp only [commit, (effQueried_foundation hr).1, List.nil_append] at h
    exact absurd h hn2
  | execNone i ext r hi =>
    simp only [(runExt_facts cfg _ ⟨ext, none, .sent⟩ r).2.2.2.2.2.1] at h
    exact absurd h hn2
  | execSome i ext cb r hi =>
    simp only [(runExt_facts cfg _ ⟨ext, some cb, .sent⟩ r).2.2.2.2.2.1] at h
    exact absurd h hn2
  | callbackOk i ext cb r c' eff hi hr =>
    simp only [commit, (effQueried_cb hr).1, List.nil_append] at h
    exact absurd h hn2
  | callbackPanic i ext cb r hi => exact absurd h hn2

end Verif.Lockup
