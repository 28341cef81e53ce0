import Verif.Lockup.Live

/-!
# Lockup properties C27–C34: termination, selection of the pool, transfers vote, keys, authorization
-/

namespace Verif.Lockup

open Verif

/-! ## C27 -/

/-- **C27.** While a termination is in progress every method of the owner fails, for every caller,
argument and environment; in a history such a call changes nothing. -/
theorem C27_owner_blocked_during_termination {s : Lockup} {u : Nat} {st : TStatus}
    (hv : s.vesting = .terminating u st) (c : OwnerCall) :
    (∀ e : Env, ∃ m, exec e s (.owner c) = .error m) ∧
    (∀ (cfg : Cfg) (w : World) (who : AccountId) (att : Nat), w.c = s →
      step cfg w (.call who att (.owner c)) = w) := by
  have h1 : ∀ e : Env, ∃ m, exec e s (.owner c) = .error m := by
    intro e
    cases hx : exec e s (.owner c) with
    | error m => exact ⟨m, rfl⟩
    | ok x =>
      obtain ⟨s', eff⟩ := x
      have := (execOwner_rel hx).2.2.1
      rw [hv] at this; cases this
  refine ⟨h1, ?_⟩
  rintro cfg w who att rfl
  simp only [step]
  split
  · rfl
  · obtain ⟨m, hm⟩ := h1 (mkEnv cfg w who att none)
    simp only [doCall, hm]

/-- a reachable world with a termination in progress -/
def demoTerminated : World :=
  run demoCfg demoStaked [.call "fdn" 0 (.foundation (.terminateVesting none))]

theorem demoTerminated_reachable : Reachable demoCfg demoArgs demoTerminated :=
  demoStaked_reachable.run _

example : demoTerminated.c.vesting = .terminating tenNear .terminatedWithDeficit := by
  decide +kernel

/-! ## C28 -/

theorem psum_paid_le {l : List Pending} {u : Nat} (h1 : psum payN l ≤ 1)
    (h2 : ∀ p ∈ l, payAmt p ≤ u) : psum paidAmt l ≤ u := by
  induction l with
  | nil => simp
  | cons p t ih =>
    rw [psum_cons] at h1 ⊢
    have h3 := h2 p (by simp)
    have h4 : paidAmt p ≤ payAmt p := by unfold paidAmt; split <;> omega
    by_cases hp : payN p = 0
    · have : payAmt p = 0 := by
        obtain ⟨ext, cb, ph⟩ := p
        cases cb with
        | none => rfl
        | some cb => cases cb <;> first | rfl | cases hp
      have := ih (by omega) (fun q hq => h2 q (by simp [hq]))
      omega
    · have : psum paidAmt t = 0 := by
        refine psum_zero_of_all (fun q hq => paidAmt_of_payAmt ?_)
        have := all_zero_of_psum (f := payN) (l := t) (by omega) q hq
        obtain ⟨ext, cb, ph⟩ := q
        cases cb with
        | none => rfl
        | some cb => cases cb <;> first | rfl | cases this
      omega

/-- **C28.** Over the whole history the tokens paid to receivers chosen by the foundation are at most
the unvested amount fixed at the termination (nothing without a termination); when the termination
completed they are exactly that amount. -/
theorem C28_foundation_receives_unvested {cfg : Cfg} {a : NewArgs} {w : World}
    (h : Reachable cfg a w) :
    w.paid ≤ w.fixedUnvested.getD 0 ∧
    (w.fixedUnvested.isSome = true → w.c.vesting = .none →
      w.paid = w.fixedUnvested.getD 0) := by
  have hS := reachable_sinv h
  have hp := hS.paid
  have hf := hS.fix
  have hle := psum_paid_le hS.pays hS.payLe
  cases hfx : w.fixedUnvested with
  | none =>
    rw [hfx] at hf
    obtain ⟨h1, h2⟩ := hf
    have : terminatedUnvested w.c = 0 := by
      unfold terminatedUnvested
      cases hv : w.c.vesting with
      | terminating u st => rw [hv] at h1; cases h1
      | _ => rfl
    exact ⟨by simp only [Option.getD_none]; omega, by simp⟩
  | some f =>
    rw [hfx] at hf
    simp only [Option.getD_some]
    obtain ⟨_, _, ⟨u, st, h1, h2, h3⟩ | ⟨h1, h2, h3⟩⟩ := hf
    · have : terminatedUnvested w.c = u := by unfold terminatedUnvested; rw [h1]
      refine ⟨by omega, fun _ hn => ?_⟩
      rw [h1] at hn; cases hn
    · have : terminatedUnvested w.c = 0 := by unfold terminatedUnvested; rw [h1]
      exact ⟨by omega, fun _ _ => by omega⟩

/-- Before the first termination vesting and foundation are those of `new`. -/
theorem init_until_termination {cfg : Cfg} {a : NewArgs} {w0 : World} (hs : Started cfg a w0) :
    ∀ l : List Ev, (run cfg w0 l).fixedUnvested = none →
      (run cfg w0 l).c.vesting = argVesting a ∧ (run cfg w0 l).c.foundation = a.foundation := by
  have hbase : w0.c.vesting = argVesting a ∧ w0.c.foundation = a.foundation := by
    refine ⟨argVesting_of_started hs, ?_⟩
    obtain ⟨d, b, n, c, hb, hn, rfl⟩ := hs
    obtain ⟨_, _, _, _, g, _⟩ := new_ok hn
    exact g
  have hgen : ∀ (l : List Ev) (w : World), SInv w → w.c.vesting = argVesting a →
      w.c.foundation = a.foundation → (run cfg w l).fixedUnvested = none →
      (run cfg w l).c.vesting = argVesting a ∧ (run cfg w l).c.foundation = a.foundation := by
    intro l
    induction l with
    | nil => intro w _ h1 h2 _; exact ⟨h1, h2⟩
    | cons ev t ih =>
      intro w hS h1 h2 h3
      have hfx : (step cfg w ev).fixedUnvested = none :=
        fixed_mono t _ h3
      have hfx0 : w.fixedUnvested = none := fixed_step ev hfx
      have hkeep : (step cfg w ev).c.vesting = w.c.vesting ∧
          (step cfg w ev).c.foundation = w.c.foundation := by
        have hcase := step_case cfg w ev
        generalize step cfg w ev = w' at hcase hfx
        cases hcase with
        | quiet ev w' g1 => rw [g1]; exact ⟨rfl, rfl⟩
        | owner who c c' eff g1 g2 g3 g4 hr =>
          obtain ⟨k1, _, k3, _⟩ := ownerRel_facts hr
          exact ⟨k1, k3⟩
        | foundation who c c' eff g1 g2 g3 hr =>
          have hnt : w.c.vesting.isTerminating = false := by
            have := hS.fix; rw [hfx0] at this; exact this.1
          cases hr with
          | terminate arg vs u st k1 =>
            simp only [commit, newFixed, hnt] at hfx
            cases hfx
          | prepareUnstake si u k1 k2 k3 => rw [k3] at hnt; cases hnt
          | prepareWithdraw si u k1 k2 k3 => rw [k3] at hnt; cases hnt
          | withdraw r u k1 => rw [k1] at hnt; cases hnt
        | execNone i ext r hi =>
          simp only [(runExt_facts cfg w ⟨ext, none, .sent⟩ r).1]; exact ⟨trivial, trivial⟩
        | execSome i ext cb r hi =>
          simp only [(runExt_facts cfg w ⟨ext, some cb, .sent⟩ r).1]; exact ⟨trivial, trivial⟩
        | callbackOk i ext cb r c' eff hi hr =>
          have hnt : w.c.vesting.isTerminating = false := by
            have := hS.fix; rw [hfx0] at this; exact this.1
          have hneed := terminating_of_needs hS hnt (mem_of_getElem?' hi) rfl
          cases hr <;> first | exact ⟨rfl, rfl⟩ | cases hneed
        | callbackPanic i ext cb r hi => exact ⟨rfl, rfl⟩
      exact ih _ (sinv_step ev hS) (hkeep.1.trans h1) (hkeep.2.trans h2) h3
  exact fun l hl => hgen l w0 (started_sinv hs) hbase.1 hbase.2 hl

/-- **C28.** The fixed amount is the documented unvested amount of the lockup's schedule (the public
one, or the revealed preimage of the hash) at the time when the foundation called
`terminate_vesting`, and at most the lockup amount. -/
theorem C28_fixed_amount_is_unvested {cfg : Cfg} {a : NewArgs} {w0 : World} {evs : List Ev}
    {f : Nat} (hs : Started cfg a w0) (hv : VestingOk cfg (argVesting a))
    (hf : (run cfg w0 evs).fixedUnvested = some f) :
    ∃ l1 who arg l2 vs, evs = l1 ++ .call who 0 (.foundation (.terminateVesting arg)) :: l2 ∧
      a.foundation = some who ∧
      (a.vesting = some (.schedule vs) ∨
        ∃ x, arg = some x ∧ x.schedule = vs ∧ a.vesting = some (.hash (cfg.sha256 x.borsh))) ∧
      f = specUnvested w0.c.info.lockupAmount vs (run cfg w0 l1).now ∧
      f ≤ w0.c.info.lockupAmount := by
  have h0 : ¬ w0.fixedUnvested = some f := by
    obtain ⟨d, b, n, c, hb, hn, rfl⟩ := hs
    intro h; cases h
  obtain ⟨l1, ev, l2, rfl, hn1, hp1⟩ :=
    run_cause (fun w => w.fixedUnvested = some f) evs h0 hf
  have hS := sinv_run (cfg := cfg) l1 (started_sinv hs)
  have hg := good_run (cfg := cfg) l1 (started_sinv hs) (started_good hs hv)
  have hconst := (const_run (cfg := cfg) (w := w0) l1).2.2.1
  have hinit := init_until_termination hs
  have hcase := step_case cfg (run cfg w0 l1) ev
  replace hp1 : (step cfg (run cfg w0 l1) ev).fixedUnvested = some f := hp1
  generalize step cfg (run cfg w0 l1) ev = w' at hcase hp1
  cases hcase with
  | quiet ev w' h1 h2 h3 h4 h5 h6 h7 => rw [h7] at hp1; exact absurd hp1 hn1
  | owner who c c' eff h1 h2 h3 h4 hr =>
    simp only [commit, (ownerRel_facts hr).1] at hp1
    rw [newFixed_same (.inr h3)] at hp1
    exact absurd hp1 hn1
  | foundation who c c' eff h1 h2 h3 hr =>
    cases hr with
    | terminate arg vs u st g1 g2 g3 g4 g5 =>
      obtain ⟨k1, k2⟩ := assertVesting_not_terminating g1
      obtain ⟨m1, m2, m3, m4, _⟩ := terminate_facts (cfg := cfg) rfl hg g1 g2 g3 st
      have hnone := fix_none_of_active hS k1 k2
      obtain ⟨n1, n2⟩ := hinit l1 hnone
      have hfu : f = u := by
        simp only [commit, newFixed, k1] at hp1
        exact (Option.some.inj hp1).symm
      rw [hfu]
      refine ⟨l1, who, arg, l2, vs, rfl, by rw [← n2]; exact h2, ?_, ?_, ?_⟩
      · rcases assertVesting_ok g1 with ⟨q1, q2⟩ | ⟨x, q1, q2, q3⟩
        · left
          rw [n1] at q1
          unfold argVesting at q1
          split at q1 <;> try cases q1
          assumption
        · right
          refine ⟨x, q1, q2, ?_⟩
          rw [n1] at q3
          unfold argVesting at q3
          split at q3 <;> try cases q3
          assumption
      · rw [m2, unvestedVal_spec, hconst]; rfl
      · rw [← hconst]; exact m3
    | prepareUnstake si u g1 g2 g3 =>
      simp only [commit] at hp1
      rw [newFixed_same (.inl (by rw [g3]; rfl))] at hp1
      exact absurd hp1 hn1
    | prepareWithdraw si u g1 g2 g3 =>
      simp only [commit] at hp1
      rw [newFixed_same (.inl (by rw [g3]; rfl))] at hp1
      exact absurd hp1 hn1
    | withdraw r u g1 =>
      simp only [commit] at hp1
      rw [newFixed_same (.inl (by rw [g1]; rfl))] at hp1
      exact absurd hp1 hn1
  | execNone i ext r hi =>
    simp only [(runExt_facts cfg _ ⟨ext, none, .sent⟩ r).2.2.2.2.1] at hp1
    exact absurd hp1 hn1
  | execSome i ext cb r hi =>
    simp only [(runExt_facts cfg _ ⟨ext, some cb, .sent⟩ r).2.2.2.2.1] at hp1
    exact absurd hp1 hn1
  | callbackOk i ext cb r c' eff hi hr =>
    have hsame : newFixed (run cfg w0 l1).c.vesting c'.vesting (run cfg w0 l1).fixedUnvested =
        (run cfg w0 l1).fixedUnvested := by
      apply newFixed_same
      by_cases hnt : (run cfg w0 l1).c.vesting.isTerminating = true
      · exact .inl hnt
      · right
        have hnt' : (run cfg w0 l1).c.vesting.isTerminating = false := by simpa using hnt
        have hneed := terminating_of_needs hS hnt' (mem_of_getElem?' hi) rfl
        cases hr <;> first | exact hnt' | cases hneed
    simp only [commit, hsame] at hp1
    exact absurd hp1 hn1
  | callbackPanic i ext cb r hi => exact absurd hp1 hn1

/-- the termination of the demo world fixes 10 NEAR, all of it unvested at time 1000 -/
example : demoTerminated.fixedUnvested = some tenNear := by decide +kernel

end Verif.Lockup
