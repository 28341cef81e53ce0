import Verif.Voting.Props
import Mathlib.Data.List.Perm.Subperm

/-!
# Voting property C96: a two-thirds majority can always decide the poll
-/

namespace Verif.Voting

open Verif

theorem sum_le_of_sublist {l1 l2 : List Nat} (h : List.Sublist l1 l2) : l1.sum ≤ l2.sum := by
  induction h with
  | slnil => exact Nat.le_refl _
  | cons a _ ih => simp only [List.sum_cons]; omega
  | cons_cons a _ ih => simp only [List.sum_cons]; omega

theorem sum_le_of_subset {f : AccountId → Nat} {l1 l2 : List AccountId} (hnd : l1.Nodup)
    (h : ∀ a ∈ l1, a ∈ l2) : (l1.map f).sum ≤ (l2.map f).sum := by
  obtain ⟨l, hp, hs⟩ := List.subperm_of_subset hnd h
  rw [← (hp.map f).sum_eq]
  exact sum_le_of_sublist (hs.map f)

theorem step_epoch (cfg : Cfg) (w : World) (ev : Ev) : w.epoch ≤ (step cfg w ev).epoch := by
  cases ev with
  | call who att c => unfold step; simp only; split <;> exact Nat.le_refl _
  | tick dt => exact Nat.le_refl _
  | epochs k => exact Nat.le_add_right _ _

theorem run_epoch (cfg : Cfg) (w : World) (evs : List Ev) : w.epoch ≤ (run cfg w evs).epoch := by
  induction evs generalizing w with
  | nil => exact Nat.le_refl _
  | cons ev t ih => exact Nat.le_trans (step_epoch cfg w ev) (ih _)

theorem run_app (cfg : Cfg) (w : World) (l1 l2 : List Ev) :
    run cfg w (l1 ++ l2) = run cfg (run cfg w l1) l2 := List.foldl_append

theorem no_result_before {cfg : Cfg} {w : World} {evs : List Ev}
    (h : getResult (run cfg w evs).c = none) : getResult w.c = none := by
  cases hr : getResult w.c with
  | none => rfl
  | some t =>
    rw [(C36_result_is_final (cfg := cfg) hr).2 evs, hr] at h
    cases h

theorem step_calls {cfg : Cfg} {w : World} {who : AccountId} {att : Nat} {c : Call} {s' : State}
    (h : Calls cfg w who att c s') : (run cfg w [.call who att c]).c = s' := by
  unfold Calls at h
  simp only [run, List.foldl, step, h]

/-! ## C96 -/

/-- **C96.** Suppose each account in `V` has voted yes at some time, has not withdrawn its vote since,
and has had stake in all epochs since. If the accounts in `V` hold more than two thirds of the stake of the
current epoch, then the poll is decided, at the latest with the next `ping` of anybody. Nothing else
matters: not the order, not the epochs of the votes, not what other accounts do. -/
theorem C96_two_thirds_decide {cfg : Cfg} (hb : Bounded cfg) {w0 : World} (hs : Started w0)
    {evs : List Ev} {V : List AccountId} (hnd : V.Nodup)
    (hV : ∀ v ∈ V, ∃ l1 l2, evs = l1 ++ .call v 0 (.vote true) :: l2 ∧
      (∀ ev ∈ l2, ev ≠ .call v 0 (.vote false)) ∧
      ∀ ep, (run cfg w0 l1).epoch ≤ ep → ep ≤ (run cfg w0 evs).epoch → 0 < stakeAt cfg ep v)
    (hmaj : 3 * (V.map (stakeAt cfg (run cfg w0 evs).epoch)).sum >
      2 * totalAt cfg (run cfg w0 evs).epoch) (who : AccountId) :
    ∃ t, getResult (run cfg w0 (evs ++ [.call who 0 .ping])).c = some t := by
  cases hres : getResult (run cfg w0 (evs ++ [.call who 0 .ping])).c with
  | some t => exact ⟨t, rfl⟩
  | none =>
    exfalso
    have hn : getResult (run cfg w0 evs).c = none := by
      rw [run_app] at hres; exact no_result_before hres
    have hreach : ∀ l, Reachable cfg (run cfg w0 l) := fun l => ⟨w0, l, hs, rfl⟩
    obtain ⟨s', hs'⟩ := (C65_open_poll_accepts hb (hreach evs) hn who).1
    have hstep : (run cfg w0 (evs ++ [.call who 0 .ping])).c = s' := by
      rw [run_app]
      exact step_calls hs'
    rw [hstep] at hres
    have hle := (C35_decided_iff_two_thirds (hreach evs) hs').2.mp hres
    have hcnt : ∀ v ∈ V, v ∈ (getVotes s').map Prod.fst := by
      intro v hv
      have : Counted s' v := by
        rw [← hstep, C38_counted_iff hs]
        obtain ⟨l1, l2, he, hno, hst⟩ := hV v hv
        have hpos : 0 < stakeAt cfg (run cfg w0 l1).epoch v :=
          hst _ (Nat.le_refl _) (by rw [he, run_app]; exact run_epoch cfg _ _)
        have hn1 : getResult (run cfg w0 l1).c = none := by
          rw [he, run_app] at hn; exact no_result_before hn
        obtain ⟨s1, hs1⟩ := (C65_open_poll_accepts hb (hreach l1) hn1 v).2.2.mpr (.inl hpos)
        have hopen : Open cfg (run cfg w0 l1) := by
          rw [open_iff v 0]
          have hn2 : s1.result = none := by
            rw [he, show l1 ++ Ev.call v 0 (.vote true) :: l2 = l1 ++ ([.call v 0 (.vote true)] ++ l2)
              from rfl, run_app, run_app] at hn
            have := no_result_before hn
            rw [step_calls hs1] at this
            exact this
          obtain ⟨_, ⟨h, _⟩ | ⟨b, h, h2⟩⟩ := exec_ok.mp hs1
          · cases h
          · cases h
            cases h2 with
            | ended _ s2 h1 hr2 => exact absurd hn2 hr2
            | cast s2 h1 hr2 => exact ⟨s2, h1, hr2⟩
        refine ⟨l1, _, l2 ++ [.call who 0 .ping], by rw [he]; simp, ⟨rfl, hopen, s1, hs1⟩, ?_⟩
        intro m1 e m2 hm
        have hep : (run cfg w0 (l1 ++ .call v 0 (.vote true) :: m1)).epoch ≤
            (run cfg w0 evs).epoch := by
          have h1 : evs ++ [.call who 0 .ping] = (l1 ++ .call v 0 (.vote true) :: m1) ++ e :: m2 := by
            rw [he, List.append_assoc, List.append_assoc, List.cons_append, List.cons_append, hm]
          have h2 : (run cfg w0 (evs ++ [.call who 0 .ping])).epoch = (run cfg w0 evs).epoch := by
            rw [run_app]
            show (step cfg (run cfg w0 evs) (.call who 0 .ping)).epoch = _
            unfold step
            simp only
            split <;> rfl
          rw [← h2, h1, run_app _ _ (l1 ++ _ :: m1)]
          exact run_epoch cfg _ _
        rintro (⟨h1, _⟩ | ⟨h1, _⟩)
        · have hmem : e ∈ l2 ++ [Ev.call who 0 .ping] := by rw [hm]; simp
          rcases List.mem_append.mp hmem with hmem | hmem
          · exact hno e hmem h1
          · rw [List.mem_singleton.mp hmem] at h1; cases h1
        · have := hst _ (by rw [run_app]; exact run_epoch cfg _ _) hep
          have h3 : stakeAt cfg (run cfg w0 (l1 ++ .call v 0 (.vote true) :: m1)).epoch v = 0 := h1
          omega
      exact this
    have hy : (V.map (stakeAt cfg (run cfg w0 evs).epoch)).sum ≤
        yesStake cfg (run cfg w0 evs).epoch s' := by
      have := sum_le_of_subset (f := stakeAt cfg (run cfg w0 evs).epoch) hnd hcnt
      rw [List.map_map] at this
      exact this
    omega

/-- The hypotheses are met by two voters in different epochs, when the stakes have changed. -/
example :
    let evs := [Ev.call "a" 0 (.vote true), .tick 3, .call "b" 0 (.vote true), .call "b" 0 (.vote false),
      .epochs 1, .call "c" 0 (.vote true), .call "a" 0 (.vote true)]
    Started demo0 ∧ Bounded demoCfg ∧ getResult (run demoCfg demo0 (evs.take 5)).c = none ∧
    (∀ v ∈ ["a", "c"], ∃ l1 l2, evs = l1 ++ .call v 0 (.vote true) :: l2 ∧
      (∀ ev ∈ l2, ev ≠ .call v 0 (.vote false)) ∧
      ∀ ep, (run demoCfg demo0 l1).epoch ≤ ep → ep ≤ (run demoCfg demo0 evs).epoch →
        0 < stakeAt demoCfg ep v) ∧
    3 * (["a", "c"].map (stakeAt demoCfg (run demoCfg demo0 evs).epoch)).sum >
      2 * totalAt demoCfg (run demoCfg demo0 evs).epoch := by
  refine ⟨demo0_started, demo_bounded, by decide +kernel, ?_, by decide +kernel⟩
  have hst : ∀ v, v = "a" ∨ v = "c" → ∀ ep, 0 < stakeAt demoCfg ep v := by
    intro v hv ep
    unfold stakeAt demoCfg
    by_cases h : ep ≤ 5
    · simp only [h, if_true]; rcases hv with rfl | rfl <;> decide +kernel
    · simp only [h, if_false]; rcases hv with rfl | rfl <;> decide +kernel
  intro v hv
  simp only [List.mem_cons, List.not_mem_nil, or_false] at hv
  rcases hv with rfl | rfl
  · exact ⟨[], _, rfl, by simp, fun ep _ _ => hst _ (.inl rfl) ep⟩
  · exact ⟨[_, _, _, _, _], _, rfl, by simp, fun ep _ _ => hst _ (.inr rfl) ep⟩

end Verif.Voting
