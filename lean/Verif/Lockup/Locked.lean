import Verif.Lockup.Invariant

/-! # How every call changes the locked amount -/

namespace Verif.Lockup

open Verif

/-- Every vesting schedule the foundation can present (or the public one) is valid. -/
def VestingOk (cfg : Cfg) : Vesting → Prop
  | .schedule vs => vs.Valid
  | .hash h => ∀ s : ScheduleWithSalt, s.schedule.start < two64 → s.schedule.cliff < two64 →
      s.schedule.finish < two64 → cfg.sha256 s.borsh = h → s.schedule.Valid
  | _ => True

/-- Well-formed state and vesting. -/
def Good (cfg : Cfg) (c : Lockup) : Prop := WF c ∧ VestingOk cfg c.vesting

theorem lockedVal_congr {c c' : Lockup} {now : Nat} (hv : c'.vesting = c.vesting)
    (hi : c'.info = c.info) : lockedVal c' now = lockedVal c now := by
  unfold lockedVal lockedUnvestedVal; rw [hv, hi]

theorem Good.congr {cfg : Cfg} {c c' : Lockup} (h : Good cfg c) (hv : c'.vesting = c.vesting)
    (hi : c'.info = c.info) : Good cfg c' := by
  obtain ⟨⟨h1, h2, h3, h4⟩, h5⟩ := h
  refine ⟨⟨by rw [hi]; exact h1, ?_, by rw [hi, hv]; exact h3, by rw [hi, hv]; exact h4⟩,
    by rw [hv]; exact h5⟩
  have : terminatedUnvested c' = terminatedUnvested c := by unfold terminatedUnvested; rw [hv]
  rw [this, hi]; exact h2

theorem lockedVal_status {c c' : Lockup} {now u : Nat} {st st' : TStatus}
    (hv : c.vesting = .terminating u st) (hv' : c'.vesting = .terminating u st')
    (hi : c'.info = c.info) : lockedVal c' now = lockedVal c now := by
  unfold lockedVal lockedUnvestedVal; rw [hv, hv', hi]

theorem Good.status {cfg : Cfg} {c c' : Lockup} {u : Nat} {st st' : TStatus} (h : Good cfg c)
    (hv : c.vesting = .terminating u st) (hv' : c'.vesting = .terminating u st')
    (hi : c'.info = c.info) : Good cfg c' := by
  obtain ⟨⟨h1, h2, h3, h4⟩, h5⟩ := h
  refine ⟨⟨by rw [hi]; exact h1, ?_, ?_, ?_⟩, by rw [hv']; trivial⟩
  · simp only [terminatedUnvested, hv] at h2
    simp only [terminatedUnvested, hv', hi]; exact h2
  · intro vs h; rw [hv'] at h; cases h
  · intro vs h; rw [hv'] at h; cases h

theorem assertVesting_ok {e : Env} {s : Lockup} {a : Option ScheduleWithSalt} {vs : Schedule}
    (h : assertVesting e s a = .ok vs) :
    (s.vesting = .schedule vs ∧ a = none) ∨
    ∃ x, a = some x ∧ x.schedule = vs ∧ s.vesting = .hash (e.sha256 x.borsh) := by
  unfold assertVesting at h
  cases hc : s.vesting with
  | none => simp [hc, throw_ok] at h
  | terminating u st => simp [hc, throw_ok] at h
  | hash b =>
    rw [hc] at h
    cases a with
    | none => simp [throw_ok] at h
    | some x =>
      simp only [bind_ok, require_ok, pure_ok] at h
      obtain ⟨_, h1, h2⟩ := h
      right; exact ⟨x, rfl, h2, by rw [← h1]; rfl⟩
  | schedule v =>
    simp only [hc, bind_ok, require_ok, pure_ok] at h
    obtain ⟨_, h1, h2⟩ := h
    left; exact ⟨by rw [h2], h1⟩

/-- The amount fixed by a termination, and the state after it. -/
theorem terminate_facts {cfg : Cfg} {e : Env} {s : Lockup} {a : Option ScheduleWithSalt}
    {vs : Schedule} {u : Nat} (hs : e.sha256 = cfg.sha256) (hg : Good cfg s)
    (h : assertVesting e s a = .ok vs)
    (hb : vs.start < two64 ∧ vs.cliff < two64 ∧ vs.finish < two64)
    (hu : getUnvestedAmount e s vs = .ok u) (st : TStatus) :
    vs.Valid ∧ u = unvestedVal s.info.lockupAmount e.now vs ∧ u ≤ s.info.lockupAmount ∧
    s.info.terminationWithdrawn = 0 ∧ Good cfg { s with vesting := .terminating u st } ∧
    ((∃ vs, s.vesting = .schedule vs) →
      lockedVal { s with vesting := .terminating u st } e.now = lockedVal s e.now) := by
  obtain ⟨h1, h2⟩ := hg
  have hvalid : vs.Valid := by
    rcases assertVesting_ok h with ⟨h3, _⟩ | ⟨x, _, rfl, h3⟩
    · rw [h3] at h2; exact h2
    · rw [h3] at h2
      exact h2 x hb.1 hb.2.1 hb.2.2 (by rw [hs])
  have hw0 : s.info.terminationWithdrawn = 0 := by
    rcases assertVesting_ok h with ⟨h3, _⟩ | ⟨x, _, _, h3⟩
    · exact (h1.sched _ h3).2.2
    · exact h1.hash _ h3
  have hval : u = unvestedVal s.info.lockupAmount e.now vs := by
    have h4 := scheduleUnvested_eq (now := e.now) h1.amt hvalid hb.2.2
    unfold getUnvestedAmount at hu
    rcases assertVesting_ok h with ⟨h3, _⟩ | ⟨x, _, _, h3⟩
    · simp only [h3] at hu
      rw [h4] at hu; cases hu; rfl
    · simp only [h3] at hu
      rw [h4] at hu; cases hu; rfl
  have hle : u ≤ s.info.lockupAmount := hval ▸ unvestedVal_le hvalid
  refine ⟨hvalid, hval, hle, hw0, ⟨⟨h1.amt, ?_, ?_, ?_⟩, trivial⟩, ?_⟩
  · show u + s.info.terminationWithdrawn ≤ s.info.lockupAmount
    omega
  · intro vs h; cases h
  · intro vs h; cases h
  · rintro ⟨vs', hv'⟩
    have : vs' = vs := by
      rcases assertVesting_ok h with ⟨h3, _⟩ | ⟨x, _, _, h3⟩
      · rw [hv'] at h3; cases h3; rfl
      · rw [hv'] at h3; cases h3
    subst this
    unfold lockedVal lockedUnvestedVal
    rw [hv']
    simp only [hval]

/-- Enabling transfers. -/
theorem pollYes_facts {cfg : Cfg} {s : Lockup} {now : Nat} (t : Nat) (hg : Good cfg s)
    (hd : transfersEnabled s = false) :
    Good cfg { s with info := { s.info with transfers := .enabled t } } ∧
    lockedVal { s with info := { s.info with transfers := .enabled t } } now ≤ lockedVal s now := by
  obtain ⟨⟨h1, h2, h3, h4⟩, h5⟩ := hg
  have hw : WF { s with info := { s.info with transfers := .enabled t } } := ⟨h1, h2, h3, h4⟩
  refine ⟨⟨hw, h5⟩, ?_⟩
  have := lockedVal_le (now := now) hw
  have h6 : lockedVal s now = s.info.lockupAmount - s.info.terminationWithdrawn := by
    unfold lockedVal
    unfold transfersEnabled at hd
    cases ht : s.info.transfers with
    | enabled t => rw [ht] at hd; cases hd
    | disabled p => rfl
  rw [h6]
  exact Nat.le_sub_of_add_le this

/-- A payment was recorded, with something left. -/
theorem paidSome_facts {cfg : Cfg} {s : Lockup} {now a u : Nat} {st st' : TStatus}
    (hg : Good cfg s) (hv : s.vesting = .terminating u st) (ha : a ≤ u) :
    Good cfg { s with
      info := { s.info with terminationWithdrawn := s.info.terminationWithdrawn + a }
      vesting := .terminating (u - a) st' } ∧
    lockedVal { s with
      info := { s.info with terminationWithdrawn := s.info.terminationWithdrawn + a }
      vesting := .terminating (u - a) st' } now + a ≤ lockedVal s now := by
  obtain ⟨⟨h1, h2, h3, h4⟩, h5⟩ := hg
  simp only [terminatedUnvested, hv] at h2
  constructor
  · refine ⟨⟨h1, ?_, fun vs h => (by cases h), fun vs h => (by cases h)⟩, trivial⟩
    show u - a + (s.info.terminationWithdrawn + a) ≤ _
    show _ ≤ s.info.lockupAmount
    omega
  · unfold lockedVal lockedUnvestedVal lockupMoment
    simp only [hv]
    cases s.info.transfers with
    | disabled p => simp only; omega
    | enabled t => simp only; split <;> omega

/-- A payment was recorded and completes the termination. -/
theorem paidAll_facts {cfg : Cfg} {s : Lockup} {now a u : Nat} {st : TStatus}
    (hg : Good cfg s) (hv : s.vesting = .terminating u st) (ha : a = u) :
    Good cfg { s with
      info := { s.info with terminationWithdrawn := s.info.terminationWithdrawn + a }
      vesting := .none, foundation := none } ∧
    lockedVal { s with
      info := { s.info with terminationWithdrawn := s.info.terminationWithdrawn + a }
      vesting := .none, foundation := none } now + a ≤ lockedVal s now := by
  obtain ⟨⟨h1, h2, h3, h4⟩, h5⟩ := hg
  simp only [terminatedUnvested, hv] at h2
  constructor
  · refine ⟨⟨h1, ?_, fun vs h => (by cases h), fun vs h => (by cases h)⟩, trivial⟩
    show 0 + (s.info.terminationWithdrawn + a) ≤ s.info.lockupAmount
    omega
  · unfold lockedVal lockedUnvestedVal lockupMoment
    simp only [hv]
    cases s.info.transfers with
    | disabled p => simp only; omega
    | enabled t => simp only; split <;> omega

/-- What a successful foundation call does to the locked amount. -/
theorem foundation_locked {cfg : Cfg} {e : Env} {s s' : Lockup} {c : FoundationCall}
    {eff : Option Eff} (hs : e.sha256 = cfg.sha256) (hg : Good cfg s)
    (h : FoundationRel e s c s' eff) :
    Good cfg s' ∧ ((∀ b, s.vesting ≠ .hash b) → lockedVal s' e.now = lockedVal s e.now) := by
  cases h with
  | terminate arg vs u st h1 h2 h3 h4 h5 =>
    obtain ⟨_, _, _, _, h6, h7⟩ := terminate_facts hs hg h1 h2 h3 st
    refine ⟨h6, fun hh => h7 ?_⟩
    rcases assertVesting_ok h1 with ⟨h8, _⟩ | ⟨x, _, _, h8⟩
    · exact ⟨_, h8⟩
    · exact absurd h8 (hh _)
  | prepareUnstake si u h1 h2 h3 =>
    exact ⟨hg.status h3 rfl rfl, fun _ => lockedVal_status h3 rfl rfl⟩
  | prepareWithdraw si u h1 h2 h3 =>
    exact ⟨hg.status h3 rfl rfl, fun _ => lockedVal_status h3 rfl rfl⟩
  | withdraw r u h1 h2 h3 =>
    exact ⟨hg.status h1 rfl rfl, fun _ => lockedVal_status h1 rfl rfl⟩

/-- What a successful callback does to the locked amount. -/
theorem cb_locked {cfg : Cfg} {w : World} {i : Nat} {ext : Ext} {cb : Callback} {r : PResult}
    {c' : Lockup} {eff : Option Eff} (hS : SInv w)
    (hi : w.pend[i]? = some ⟨ext, some cb, .done r⟩) (hg : Good cfg w.c)
    (h : CbRel w.c r cb c' eff) :
    Good cfg c' ∧
    lockedVal c' w.now + paidAmt ⟨ext, some cb, .done r⟩ ≤ lockedVal w.c w.now := by
  have same : ∀ {c' : Lockup}, payAmt ⟨ext, some cb, .done r⟩ = 0 →
      c'.vesting = w.c.vesting → c'.info = w.c.info →
      Good cfg c' ∧
        lockedVal c' w.now + paidAmt ⟨ext, some cb, .done r⟩ ≤ lockedVal w.c w.now := by
    intro c' h0 h1 h2
    rw [paidAmt_of_payAmt h0, lockedVal_congr h1 h2]
    exact ⟨hg.congr h1 h2, Nat.le_refl _⟩
  have status : ∀ {c' : Lockup} {u : Nat} {st st' : TStatus},
      payAmt ⟨ext, some cb, .done r⟩ = 0 → w.c.vesting = .terminating u st →
      c'.vesting = .terminating u st' → c'.info = w.c.info →
      Good cfg c' ∧
        lockedVal c' w.now + paidAmt ⟨ext, some cb, .done r⟩ ≤ lockedVal w.c w.now := by
    intro c' u st st' h0 h1 h2 h3
    rw [paidAmt_of_payAmt h0, lockedVal_status h1 h2 h3]
    exact ⟨hg.status h1 h2 h3, Nat.le_refl _⟩
  cases h with
  | whitelist p h1 h2 h3 => exact same rfl rfl rfl
  | depositOk _ a si hcb => rcases hcb with rfl | rfl <;> exact same rfl rfl rfl
  | depositFailed _ a si hcb => rcases hcb with rfl | rfl <;> exact same rfl rfl rfl
  | withdrawOk a si => exact same rfl rfl rfl
  | withdrawFailed a si => exact same rfl rfl rfl
  | stakeLike _ si hcb =>
    rcases hcb with ⟨a, rfl⟩ | ⟨a, rfl⟩ | rfl <;> exact same rfl rfl rfl
  | pollYes t h1 h2 h3 =>
    rw [paidAmt_of_payAmt rfl]
    exact pollYes_facts t hg h3
  | pollNo h1 h2 => exact same rfl rfl rfl
  | total n si => exact same rfl rfl rfl
  | unstakedSome n si h1 h2 h3 h4 => exact same rfl rfl rfl
  | unstakedNone si => exact same rfl rfl rfl
  | tStakedSome n si h1 h2 h3 h4 => exact same rfl rfl rfl
  | tStakedNone si u old h1 h2 h3 => exact status rfl h3 rfl rfl
  | tUnstake a si u old h1 h2 => exact status rfl h2 rfl rfl
  | tUnstakedSome n si h1 h2 h3 h4 => exact same rfl rfl rfl
  | tUnstakedNone si u old h1 h2 h3 => exact status rfl h3 rfl rfl
  | tWithdrawOk a si u old h1 h2 h3 => exact status rfl h3 rfl rfl
  | tWithdrawFailed a si u old h1 h2 h3 => exact status rfl h3 rfl rfl
  | paidSome a rc h1 h2 h3 =>
    obtain ⟨u, f, hv, hle, _⟩ := pay_facts hS hi
    have hU : terminatedUnvested w.c = u := by simp [terminatedUnvested, hv]
    have hp : paidAmt ⟨ext, some (.onWithdrawUnvested a rc), .done r⟩ = a := by
      simp [paidAmt, Phase.ok, h1, payAmt]
    rw [hp, hU]
    exact paidSome_facts hg hv hle
  | paidAll a rc h1 h2 h3 =>
    obtain ⟨u, f, hv, hle, _⟩ := pay_facts hS hi
    have hU : terminatedUnvested w.c = u := by simp [terminatedUnvested, hv]
    have hp : paidAmt ⟨ext, some (.onWithdrawUnvested a rc), .done r⟩ = a := by
      simp [paidAmt, Phase.ok, h1, payAmt]
    rw [hp]
    exact paidAll_facts hg hv (by omega)
  | paidFailed a rc u old h1 h2 =>
    have hp : paidAmt ⟨ext, some (.onWithdrawUnvested a rc), .done r⟩ = 0 := by
      simp [paidAmt, Phase.ok, h1]
    rw [hp]
    exact ⟨hg.status h2 rfl rfl, le_of_eq (lockedVal_status h2 rfl rfl)⟩

/-- The state stays well-formed forever. -/
theorem good_step {cfg : Cfg} {w : World} (ev : Ev) (hS : SInv w) (hg : Good cfg w.c) :
    Good cfg (step cfg w ev).c := by
  cases ev with
  | call who att c =>
    simp only [step]
    split
    · exact hg
    · rename_i hw
      rcases doCall_cases cfg w who att none c with ⟨hd, _⟩ | ⟨c', eff, hx, ha, hd⟩
      · rw [hd]; exact hg
      · rw [hd]
        cases c with
        | owner c =>
          obtain ⟨_, _, _, hr⟩ := execOwner_rel hx
          obtain ⟨h1, h2, _⟩ := ownerRel_facts hr
          exact hg.congr h1 h2
        | foundation c =>
          obtain ⟨_, _, hr⟩ := execFoundation_rel hx
          exact (foundation_locked rfl hg hr).1
        | callback c => exact absurd hx (callback_needs_self hw)
  | execute i r =>
    simp only [step, execute]
    split
    · rename_i ext cb hi
      obtain ⟨h1, _⟩ := runExt_facts cfg w ⟨ext, cb, .sent⟩ r
      generalize runExt cfg w ⟨ext, cb, .sent⟩ r = x at h1
      obtain ⟨r', w'⟩ := x
      simp only at h1 ⊢
      cases cb <;> (simp only; rw [h1]; exact hg)
    · exact hg
  | callback i =>
    simp only [step, callback]
    split
    · rename_i ext cb r hi
      rcases doCall_cases cfg { w with pend := w.pend.eraseIdx i } cfg.self 0 (some r)
        (.callback cb) with ⟨hd, hno⟩ | ⟨c', eff, hx, ha, hd⟩
      · rw [hd]; exact hg
      · rw [hd]
        simp only [exec, bind_ok] at hx
        obtain ⟨_, _, hx⟩ := hx
        obtain ⟨_, r', hr', hrel⟩ := execCallback_rel hx
        cases hr'
        exact (cb_locked hS hi hg hrel).1
    · exact hg
  | arrive x => simp only [step]; split <;> exact hg
  | income x => exact hg
  | tick x => exact hg
  | poolReward x => exact hg
  | poolLoss x => simp only [step]; split <;> exact hg

end Verif.Lockup
