import Verif.Lockup.Coverage

/-! # The invariants hold in every reachable world -/

namespace Verif.Lockup

open Verif

/-- The vesting information that a successful `new` stores. -/
def argVesting (a : NewArgs) : Vesting :=
  match a.vesting with
  | none => .none
  | some (.hash h) => .hash h
  | some (.schedule vs) => .schedule vs

/-- What a successful `new` guarantees. -/
theorem new_ok {e : Env} {a : NewArgs} {c : Lockup} (h : new e false a = .ok c) :
    c.owner = a.owner ∧ c.vesting = argVesting a ∧ c.staking = none ∧
    c.whitelist = a.whitelist ∧ c.foundation = a.foundation ∧
    c.info.lockupAmount = e.accountBalance ∧ c.info.terminationWithdrawn = 0 ∧
    c.info.lockupDuration = a.lockupDuration ∧ c.info.releaseDuration = a.releaseDuration ∧
    c.info.lockupTimestamp = a.lockupTimestamp ∧ c.info.transfers = a.transfers ∧
    (∀ vs, c.vesting = .schedule vs → vs.start < two64 ∧ vs.cliff < two64 ∧ vs.finish < two64) ∧
    (c.vesting = .none ↔ c.foundation = none) ∧
    (∀ t, a.transfers = .enabled t → t < two64) := by
  simp only [new, bind_ok, require_ok, pure_ok] at h
  obtain ⟨_, _, _, _, _, _, _, _, _, _, _, _, _, _, _, ht, v, hv, _, hf, rfl⟩ := h
  have h1 : v = argVesting a ∧
      (∀ vs, v = .schedule vs → vs.start < two64 ∧ vs.cliff < two64 ∧ vs.finish < two64) ∧
      (v = .none → a.foundation = none) := by
    unfold argVesting
    unfold initVesting at hv
    cases ha : a.vesting with
    | none =>
      simp only [ha, bind_ok, require_ok, pure_ok] at hv
      obtain ⟨_, h1, rfl⟩ := hv
      exact ⟨rfl, by simp, fun _ => h1⟩
    | some x =>
      cases x with
      | hash b =>
        simp only [ha, pure_ok] at hv
        subst hv
        exact ⟨rfl, by simp, by simp⟩
      | schedule vs =>
        simp only [ha, bind_ok, pure_ok, decodeSchedule, decodeU64_ok] at hv
        obtain ⟨_, ⟨_, h1, _, h2, h3⟩, rfl⟩ := hv
        exact ⟨rfl, by rintro vs' h; cases h; exact ⟨h1, h2, h3⟩, by simp⟩
  refine ⟨rfl, h1.1, rfl, rfl, rfl, rfl, rfl, rfl, rfl, rfl, rfl, h1.2.1, ⟨h1.2.2, ?_⟩, ?_⟩
  · intro hn
    simp only [checkFoundation, require_ok] at hf
    rcases hf with hf | ⟨f, hf, _⟩
    · exact hf
    · simp only at hn; rw [hn] at hf; cases hf
  · intro t hta
    rw [hta] at ht
    simpa [checkTransfers] using ht

/-- The structural invariant holds initially. -/
theorem started_sinv {cfg : Cfg} {a : NewArgs} {w0 : World} (h : Started cfg a w0) : SInv w0 := by
  obtain ⟨d, b, n, c, hb, hn, rfl⟩ := h
  obtain ⟨_, h1, h2, _, _, h5, h6, _⟩ := new_ok hn
  have hv : c.vesting.isTerminating = false := by
    rw [h1]; unfold argVesting
    split <;> rfl
  constructor
  · intro p hp; simp [initWorld] at hp
  · simp [initWorld]
  · intro p hp; simp [initWorld] at hp
  · simp [initWorld]
  · intro p hp; simp [initWorld] at hp
  · exact ⟨hv, h6⟩
  · simp [initWorld, h6]
  · show c.info.lockupAmount < two128
    rw [h5]; exact hb

/-- The structural invariant holds in every reachable world. -/
theorem reachable_sinv {cfg : Cfg} {a : NewArgs} {w : World} (h : Reachable cfg a w) : SInv w := by
  obtain ⟨w0, evs, hs, rfl⟩ := h
  exact sinv_run evs (started_sinv hs)

theorem started_good {cfg : Cfg} {a : NewArgs} {w0 : World} (h : Started cfg a w0)
    (hv : VestingOk cfg (argVesting a)) : Good cfg w0.c := by
  obtain ⟨d, b, n, c, hb, hn, rfl⟩ := h
  obtain ⟨_, h1, h2, _, _, h5, h6, _, _, _, _, h7, _⟩ := new_ok hn
  show Good cfg c
  refine ⟨⟨by rw [h5]; exact hb, ?_, ?_, fun _ _ => h6⟩, by rw [h1]; exact hv⟩
  · have : terminatedUnvested c = 0 := by
      unfold terminatedUnvested; rw [h1]; unfold argVesting
      cases a.vesting with
      | none => rfl
      | some x => cases x <;> rfl
    omega
  · intro vs hvs
    refine ⟨?_, (h7 vs hvs).2.2, h6⟩
    rw [← h1, hvs] at hv; exact hv

theorem good_run {cfg : Cfg} {w : World} (evs : List Ev) (hS : SInv w) (h : Good cfg w.c) :
    Good cfg (run cfg w evs).c := by
  induction evs generalizing w with
  | nil => exact h
  | cons ev t ih => exact ih (sinv_step ev hS) (good_step ev hS h)

theorem reachable_good {cfg : Cfg} {a : NewArgs} {w : World} (h : Reachable cfg a w)
    (hv : VestingOk cfg (argVesting a)) : Good cfg w.c := by
  obtain ⟨w0, evs, hs, rfl⟩ := h
  exact good_run evs (started_sinv hs) (started_good hs hv)

theorem started_dinv {cfg : Cfg} {a : NewArgs} {w0 : World} (h : Started cfg a w0) : DInv w0 := by
  obtain ⟨d, b, n, c, hb, hn, rfl⟩ := h
  obtain ⟨_, _, h2, _⟩ := new_ok hn
  constructor
  · simp [initWorld, knownDeposited, h2]
  · intro p hp; simp [initWorld] at hp

theorem dinv_run {cfg : Cfg} {w : World} (evs : List Ev) (hon : cfg.honestPools = true)
    (hS : SInv w) (h : DInv w) : DInv (run cfg w evs) := by
  induction evs generalizing w with
  | nil => exact h
  | cons ev t ih => exact ih (sinv_step ev hS) (dinv_step ev hon hS h)

theorem started_cov {cfg : Cfg} {a : NewArgs} {w0 : World} (h : Started cfg a w0)
    (hv : VestingOk cfg (argVesting a)) : Cov w0 := by
  have hg := started_good h hv
  obtain ⟨d, b, n, c, hb, hn, rfl⟩ := h
  obtain ⟨_, _, _, _, _, h5, h6, _⟩ := new_ok hn
  have := lockedVal_le (now := n) hg.1
  have h5' : c.info.lockupAmount = b := h5
  unfold Cov
  simp only [initWorld] at this ⊢
  simp only [psum_nil]
  omega

theorem cov_run {cfg : Cfg} {w : World} (evs : List Ev) (hon : cfg.honestPools = true)
    (hS : SInv w) (hD : DInv w) (hg : Good cfg w.c) (hC : Cov w)
    (hn : NoHash w.c.vesting ∨ (run cfg w evs).fixedUnvested = none) : Cov (run cfg w evs) := by
  induction evs generalizing w with
  | nil => exact hC
  | cons ev t ih =>
    have back : ∀ (l : List Ev) (w : World), (run cfg w l).fixedUnvested = none →
        w.fixedUnvested = none := by
      intro l
      induction l with
      | nil => exact fun _ h => h
      | cons e t ih => exact fun w h => fixed_step e (ih _ h)
    have hn1 : NoHash w.c.vesting ∨ (step cfg w ev).fixedUnvested = none :=
      hn.imp id (back t _)
    exact ih (sinv_step ev hS) (dinv_step ev hon hS hD) (good_step ev hS hg)
      (cov_step ev hon hS hD hg hC hn1) (hn.imp (noHash_step ev) id)

theorem argVesting_of_started {cfg : Cfg} {a : NewArgs} {w0 : World} (h : Started cfg a w0) :
    w0.c.vesting = argVesting a := by
  obtain ⟨d, b, n, c, hb, hn, rfl⟩ := h
  exact (new_ok hn).2.1

/-- The locked amount is covered in every reachable world. -/
theorem reachable_cov {cfg : Cfg} {a : NewArgs} {w : World} (h : Reachable cfg a w)
    (hon : cfg.honestPools = true) (hv : VestingOk cfg (argVesting a))
    (hn : NoHash (argVesting a) ∨ w.fixedUnvested = none) : Cov w := by
  obtain ⟨w0, evs, hs, rfl⟩ := h
  refine cov_run evs hon (started_sinv hs) (started_dinv hs) (started_good hs hv)
    (started_cov hs hv) ?_
  rw [argVesting_of_started hs]; exact hn

theorem reachable_dinv {cfg : Cfg} {a : NewArgs} {w : World} (h : Reachable cfg a w)
    (hon : cfg.honestPools = true) : DInv w := by
  obtain ⟨w0, evs, hs, rfl⟩ := h
  exact dinv_run evs hon (started_sinv hs) (started_dinv hs)

end Verif.Lockup
