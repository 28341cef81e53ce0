import Verif.System.Stuck

/-!
# Properties of the whole system (C86 continued, C89)
-/

namespace Verif.System

open Verif

/-- **C86, known deposit.** Whenever no operation is in flight, what the lockup believes to have
deposited is really there: the selected pool reports at least the known deposited balance. -/
theorem C86_known_deposit_is_at_the_pool {cfg : Cfg} {a : Lockup.NewArgs} {s : Sys}
    (h : Reachable cfg a s) {si : Lockup.StakingInfo} (hs : s.lk.c.staking = some si)
    (hidle : si.busy = false) :
    Lockup.knownDeposited s.lk.c ≤ reported cfg s si.pool := by
  have hi := reachable_inv h
  obtain ⟨w, hw⟩ := hi.selected hs
  have h1 : Lockup.knownDeposited s.lk.c ≤ atPools cfg (sel s) s + s.lk.loss :=
    Lockup.known_backed (hi.sinv (sel s)) (reachable_selD h) (by
      intro si' hs'
      have h3 : s.lk.c.staking = some si' := hs'
      rw [hs] at h3; cases h3; exact hidle)
  rw [hi.loss, Nat.add_zero, atPools_sel hs hw, ← reported_eq hw] at h1
  exact h1

example : Lockup.knownDeposited demo.lk.c = 5 * 10 ^ 24 ∧
    reported demoCfg demo "pool" = 5001000000000000022222222 ∧
    reported demoCfg demo "pool2" = 0 := by decide +kernel

/-! ## C89 -/

/-- The assumptions about the host: what a pool owes to the lockup is a `u128` (the supply of tokens
is), and the host does not lose balance queries of the lockup (they do not run out of gas). -/
def Usual (cfg : Cfg) (s : Sys) : List Ev → Prop
  | [] => True
  | ev :: t =>
    (∀ p, reported cfg s p < two128) ∧
    (∀ i r q, ev = .execute i false r → s.lk.pend[i]? = some q → viewOf q.ext = none) ∧
    Usual cfg (step cfg s ev) t

theorem free_started {cfg : Cfg} {a : Lockup.NewArgs} {s0 : Sys} (h : Started cfg a s0) :
    Free s0 := by
  obtain ⟨d, b, n, c, hb, hx, hw⟩ := h.lk
  have hs : s0.lk.c.staking = none := by rw [hw]; exact (Lockup.new_ok hx).2.2.1
  have hp : s0.lk.pend = [] := by rw [hw]; rfl
  refine ⟨by rw [Lockup.busyN_none hs]; exact Nat.zero_le _, ?_⟩
  rw [hp]
  intro q hq
  cases hq

theorem free_run {cfg : Cfg} {a : Lockup.NewArgs} {s : Sys} (h : Inv cfg a s)
    (hD : Lockup.DInv (abs cfg (sel s) s)) (hF : Free s) {evs : List Ev} (hc : Careful cfg s evs)
    (hu : Usual cfg s evs) : Free (run cfg s evs) := by
  induction evs generalizing s with
  | nil => exact hF
  | cons ev t ih =>
    refine ih (inv_step h ev hc.1).1 (selD_step h ev hc.1 hD) ?_ hc.2 hu.2.2
    refine free_step h ev hc.1 hD hF ?_ hu.2.1
    intro p w hw
    rw [← reported_eq hw]
    exact hu.1 p

/-- **C89.** In every history with the pools of /repo the lockup never gets stuck: when it is busy, a
receipt to the selected pool is under way; and when the answer of the pool arrives, whatever it is,
the lockup is idle afterwards, or it has sent the second receipt of a two-step operation (which is no
query any more, so the operation ends with its answer). Compare the refutation for arbitrary pools
(C26). -/
theorem C89_never_stuck {cfg : Cfg} {a : Lockup.NewArgs} {s0 : Sys} {evs : List Ev}
    (h : Started cfg a s0) (hc : Careful cfg s0 evs) (hu : Usual cfg s0 evs)
    {si : Lockup.StakingInfo} (hs : (run cfg s0 evs).lk.c.staking = some si)
    (hbusy : si.busy = true) :
    (∃ (i : Nat) (q : Lockup.Pending) (cb : Lockup.Callback),
      (run cfg s0 evs).lk.pend[i]? = some q ∧ q.cb = some cb ∧ q.ext.isPoolOp = true ∧
      q.ext.pool? = some si.pool) ∧
    ∀ i ext cb r, (run cfg s0 evs).lk.pend[i]? = some ⟨ext, some cb, .done r⟩ →
      ext.isPoolOp = true → reported cfg (run cfg s0 evs) si.pool < two128 →
      (∃ si', (run cfg s0 (evs ++ [.callback i])).lk.c.staking = some si' ∧ si'.busy = false) ∨
      ((viewOf ext).isSome = true ∧ ∃ ext' cb',
        ext'.isPoolOp = true ∧ ext'.pool? = some si.pool ∧ viewOf ext' = none ∧
        (run cfg s0 (evs ++ [.callback i])).lk.pend =
          (run cfg s0 evs).lk.pend.eraseIdx i ++ [⟨ext', some cb', .sent⟩]) := by
  have h0 := started_inv h
  have hi := (inv_run h0 hc).1
  have hre : Reachable cfg a (run cfg s0 evs) := ⟨s0, evs, h, hc, rfl⟩
  have hD := reachable_selD hre
  have hF := free_run h0 (reachable_selD ⟨s0, [], h, trivial, rfl⟩) (free_started h) hc hu
  have htgt : ∀ q ∈ (run cfg s0 evs).lk.pend, ∀ p, q.ext.pool? = some p → p = si.pool := by
    intro q hq p hp
    obtain ⟨si', h1, h2⟩ := Lockup.reachable_target hi.reachable q hq p hp
    have h3 : (run cfg s0 evs).lk.c.staking = some si' := h1
    rw [hs] at h3
    cases h3
    exact h2.symm
  refine ⟨?_, ?_⟩
  · have h1 := hF.op
    have h2 : Lockup.busyN (run cfg s0 evs).lk.c = 1 := by simp [Lockup.busyN, hs, hbusy]
    have h3 : ∃ q ∈ (run cfg s0 evs).lk.pend, Lockup.opN q ≠ 0 := by
      by_contra hno
      have : Lockup.psum Lockup.opN (run cfg s0 evs).lk.pend = 0 :=
        Lockup.psum_zero_of_all (fun q hq => by
          by_contra hne
          exact hno ⟨q, hq, hne⟩)
      omega
    obtain ⟨q, hq, hop⟩ := h3
    obtain ⟨i, hi'⟩ := List.getElem?_of_mem hq
    have hcoh := (hi.sinv all).coh q hq
    obtain ⟨ext, cb, ph⟩ := q
    have key : ∃ cb' p, cb = some cb' ∧ ext.isPoolOp = true ∧ ext.pool? = some p := by
      cases hcoh <;> first
        | exact ⟨_, _, rfl, rfl, rfl⟩
        | exact absurd rfl hop
    obtain ⟨cb', p, h4, h5, h6⟩ := key
    refine ⟨i, _, cb', hi', h4, h5, ?_⟩
    rw [← htgt _ hq p h6]; exact h6
  · intro i ext cb r hpend hop hrep
    obtain ⟨w, hw⟩ := hi.selected hs
    have hstep : run cfg s0 (evs ++ [.callback i]) = step cfg (run cfg s0 evs) (.callback i) := by
      rw [run_append]; rfl
    rw [hstep]
    rcases callback_frees hi hD hF (si := si) hs hrep hpend hop with
      ⟨si', h1, h2, _⟩ | ⟨ext', cb', h1, h2, h3, h4⟩
    · exact .inl ⟨si', h1, h2⟩
    · right
      have hcoh : Lockup.Coh (run cfg s0 evs).lk.c ext (some cb) :=
        (hi.sinv all).coh _ (Lockup.mem_of_getElem?' hpend)
      have hi' := (inv_step hi (.callback i) (by simp)).1
      have hmem : (⟨ext', some cb', .sent⟩ : Lockup.Pending) ∈
          (step cfg (run cfg s0 evs) (.callback i)).lk.pend := by rw [h4]; simp
      have hcoh' : Lockup.Coh (step cfg (run cfg s0 evs) (.callback i)).lk.c ext' (some cb') :=
        (hi'.sinv all).coh _ hmem
      refine ⟨?_, ext', cb', h2, ?_, ?_, h4⟩
      · cases hcoh <;> first | rfl | exact absurd h1 Bool.false_ne_true
      · have : ∃ p, ext'.pool? = some p := by
          cases hcoh' <;> first | exact ⟨_, rfl⟩ | exact absurd h2 Bool.false_ne_true
        obtain ⟨p, hp⟩ := this
        obtain ⟨si', g1, g2⟩ := Lockup.reachable_target hi'.reachable _ hmem p hp
        have g3 : (step cfg (run cfg s0 evs) (.callback i)).lk.c.staking = some si' := g1
        have g4 := (hi'.sinv all).ops
        have g5 : 1 ≤ Lockup.psum Lockup.opN
            (step cfg (run cfg s0 evs) (.callback i)).lk.pend := by
          rw [h4, Lockup.psum_append]
          refine Nat.le_trans ?_ (Nat.le_add_left _ _)
          show 1 ≤ Lockup.opN ⟨ext', some cb', .sent⟩
          rw [Lockup.opN_eq hcoh', if_pos h2]
        rcases Lockup.selection_changes (cfg := cfg.lk) (w := (run cfg s0 evs).lk) (.callback i) with
          g6 | ⟨_, g6⟩
        · have g7 : (step cfg (run cfg s0 evs) (.callback i)).lk.c.staking.map
              Lockup.StakingInfo.pool = some si.pool := by
            show (Lockup.step cfg.lk (run cfg s0 evs).lk (.callback i)).c.staking.map _ = _
            rw [g6, hs]; rfl
          rw [g3] at g7
          simp only [Option.map_some, Option.some.injEq] at g7
          rw [hp, ← g2, g7]
        · have g7 : Lockup.busyN (step cfg (run cfg s0 evs) (.callback i)).lk.c = 0 := g6
          have g8 : Lockup.psum Lockup.opN (step cfg (run cfg s0 evs) (.callback i)).lk.pend ≤
            Lockup.busyN (step cfg (run cfg s0 evs) (.callback i)).lk.c := g4
          omega
      · cases hcoh' <;> first | rfl | exact absurd h3 (by decide)

/-- What a decidable check says about `Usual`. -/
def usualB (cfg : Cfg) (s : Sys) : List Ev → Bool
  | [] => true
  | ev :: t =>
    (s.pools.keys.all fun p => decide (reported cfg s p < two128)) &&
    (match ev with
      | .execute i false _ =>
        match s.lk.pend[i]? with
        | some q => (viewOf q.ext).isNone
        | none => true
      | _ => true) && usualB cfg (step cfg s ev) t

theorem usual_of_bool {cfg : Cfg} {s : Sys} {evs : List Ev} (h : usualB cfg s evs = true) :
    Usual cfg s evs := by
  induction evs generalizing s with
  | nil => trivial
  | cons ev t ih =>
    simp only [usualB, Bool.and_eq_true] at h
    refine ⟨?_, ?_, ih h.2⟩
    · intro p
      by_cases hp : p ∈ s.pools.keys
      · exact of_decide_eq_true (List.all_eq_true.mp h.1.1 p hp)
      · unfold reported
        rw [UMap.get_eq_none.mpr hp]
        show 0 < two128
        decide
    · rintro i r q rfl hq
      have h1 := h.1.2
      simp only [hq] at h1
      exact Option.isNone_iff_eq_none.mp h1

/-- The owner withdraws everything: the lockup is busy with the query, and after the answer it is busy
with the second receipt. A receipt that is no query is lost by the host before. -/
def demoBusy : List Ev :=
  demoEvs ++ [.call "owner" 0 (.owner (.unstake (10 ^ 24))), .execute 0 false .failed, .callback 0,
    .call "owner" 0 (.owner .unstakeAll), .execute 0 true .failed, .callback 0,
    .call "owner" 0 (.owner .withdrawAllFromStakingPool), .execute 0 true .failed]

example : Careful demoCfg (startOf Lockup.pollArgs) demoBusy ∧
    Usual demoCfg (startOf Lockup.pollArgs) demoBusy ∧
    (run demoCfg (startOf Lockup.pollArgs) demoBusy).lk.c.staking =
      some ⟨"pool", true, 5 * 10 ^ 24⟩ ∧
    (run demoCfg (startOf Lockup.pollArgs) demoBusy).lk.pend[0]? =
      some ⟨.poolUnstakedBalance "pool", some .onUnstakedToWithdrawByOwner,
        .done (.balance 5001000000000000022222223)⟩ :=
  ⟨careful_of_bool (by decide +kernel), usual_of_bool (by decide +kernel), by decide +kernel,
    by decide +kernel⟩

end Verif.System
