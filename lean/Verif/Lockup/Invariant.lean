import Verif.Lockup.Pend

/-! # Structural invariant of the lockup world (for arbitrary staking pools) -/

namespace Verif.Lockup

open Verif

/-- How the amount fixed at termination relates to what is recorded now. -/
def FixInv (c : Lockup) : Option Nat → Prop
  | none => c.vesting.isTerminating = false ∧ c.info.terminationWithdrawn = 0
  | some f => f < two128 ∧ 0 < f ∧
      ((∃ u st, c.vesting = .terminating u st ∧ 0 < u ∧ u + c.info.terminationWithdrawn = f) ∨
       (c.vesting = .none ∧ c.foundation = none ∧ c.info.terminationWithdrawn = f))

/-- Structural invariant. -/
structure SInv (w : World) : Prop where
  coh : ∀ p ∈ w.pend, Coh w.c p.ext p.cb
  ops : psum opN w.pend ≤ busyN w.c
  need : ∀ p ∈ w.pend, ∀ cb st, p.cb = some cb → cb.needs = some st →
    ∃ u, w.c.vesting = .terminating u st
  pays : psum payN w.pend ≤ 1
  payLe : ∀ p ∈ w.pend, payAmt p ≤ terminatedUnvested w.c
  fix : FixInv w.c w.fixedUnvested
  paid : w.paid = w.c.info.terminationWithdrawn + psum paidAmt w.pend
  amt : w.c.info.lockupAmount < two128

theorem busyN_le (c : Lockup) : busyN c ≤ 1 := by
  unfold busyN
  cases c.staking with
  | none => simp
  | some si => simp only; split <;> omega

theorem busyN_idle {c : Lockup} {si : StakingInfo} (h : c.staking = some si)
    (hb : si.busy = false) : busyN c = 0 := by
  simp [busyN, h, hb]

theorem busyN_none {c : Lockup} (h : c.staking = none) : busyN c = 0 := by simp [busyN, h]

theorem busyN_pos {c : Lockup} (h : 0 < busyN c) :
    ∃ si, c.staking = some si ∧ si.busy = true := by
  unfold busyN at h
  cases hs : c.staking with
  | none => simp [hs] at h
  | some si =>
    refine ⟨si, rfl, ?_⟩
    rw [hs] at h
    cases hb : si.busy with
    | true => rfl
    | false => simp [hb] at h

theorem doCall_cases (cfg : Cfg) (w : World) (who : AccountId) (att : Nat) (r : Option PResult)
    (c : Call) :
    (doCall cfg w who att r c = w ∧ ∀ c' eff, exec (mkEnv cfg w who att r) w.c c = .ok (c', eff) →
      ¬ effAttached eff ≤ w.bal + att) ∨
    ∃ c' eff, exec (mkEnv cfg w who att r) w.c c = .ok (c', eff) ∧
      effAttached eff ≤ w.bal + att ∧ doCall cfg w who att r c = commit w att c' eff := by
  unfold doCall
  cases h : exec (mkEnv cfg w who att r) w.c c with
  | error m => exact .inl ⟨rfl, fun _ _ h' => by cases h'⟩
  | ok x =>
    obtain ⟨c', eff⟩ := x
    by_cases ha : effAttached eff ≤ w.bal + att
    · exact .inr ⟨c', eff, rfl, ha, by simp [ha]⟩
    · refine .inl ⟨by simp [ha], fun c'' eff' h' => ?_⟩
      cases h'; exact ha

/-- Facts about an owner call used by all invariants. -/
theorem ownerRel_facts {e : Env} {s s' : Lockup} {c : OwnerCall} {eff : Option Eff}
    (h : OwnerRel e s c s' eff) :
    s'.vesting = s.vesting ∧ s'.info = s.info ∧ s'.foundation = s.foundation ∧
    s'.whitelist = s.whitelist ∧ s'.owner = s.owner ∧ knownDeposited s' = knownDeposited s ∧
    (∀ p ∈ effPending eff, Coh s p.ext p.cb ∧ p.phase = .sent ∧ payN p = 0 ∧ payAmt p = 0 ∧
      ∀ cb, p.cb = some cb → cb.needs = none) ∧
    busyN s + psum opN (effPending eff) ≤ busyN s' ∧
    psum payN (effPending eff) = 0 ∧ psum paidAmt (effPending eff) = 0 := by
  cases h with
  | select p h1 h2 =>
    refine ⟨rfl, rfl, rfl, rfl, rfl, rfl, ?_, ?_, rfl, rfl⟩
    · intro p hp
      simp only [effPending, List.mem_singleton] at hp; subst hp
      exact ⟨.whitelist _, rfl, rfl, rfl, by rintro cb h; cases h; rfl⟩
    · simp [effPending, opN, Callback.isOp]
  | unselect si h1 h2 h3 =>
    refine ⟨rfl, rfl, rfl, rfl, rfl, ?_, ?_, ?_, rfl, rfl⟩
    · simp [knownDeposited, h1, h3]
    · intro p hp; simp [effPending] at hp
    · rw [busyN_idle h1 h2]; simp [effPending]
  | op c si ext cb h1 h2 h3 =>
    have hcb : cb.isOp = true ∧ cb.needs = none := by cases h3 <;> exact ⟨rfl, rfl⟩
    have hpay : ∀ p ∈ effPending (some ⟨ext, some cb⟩), payN p = 0 ∧ payAmt p = 0 := by
      intro p hp
      simp only [effPending, List.mem_singleton] at hp; subst hp
      cases h3 <;> exact ⟨rfl, rfl⟩
    refine ⟨rfl, rfl, rfl, rfl, rfl, ?_, ?_, ?_, ?_, ?_⟩
    · simp [knownDeposited, h1]
    · intro p hp
      obtain ⟨h4, h5⟩ := hpay p hp
      simp only [effPending, List.mem_singleton] at hp; subst hp
      refine ⟨?_, rfl, h4, h5, ?_⟩
      · cases h3 <;> constructor
      · rintro cb' h; cases h; exact hcb.2
    · rw [busyN_idle h1 h2]
      simp [effPending, opN, busyN, hcb.1]
    · have := (hpay _ (List.mem_singleton.mpr rfl)).1
      simpa [effPending] using this
    · simp [effPending, paidAmt, Phase.ok]
  | poll p h1 =>
    refine ⟨rfl, rfl, rfl, rfl, rfl, rfl, ?_, ?_, rfl, rfl⟩
    · intro p hp
      simp only [effPending, List.mem_singleton] at hp; subst hp
      exact ⟨.poll _, rfl, rfl, rfl, by rintro cb h; cases h; rfl⟩
    · simp [effPending, opN, Callback.isOp]
  | transfer a r l h1 =>
    refine ⟨rfl, rfl, rfl, rfl, rfl, rfl, ?_, ?_, rfl, rfl⟩
    · intro p hp
      simp only [effPending, List.mem_singleton] at hp; subst hp
      exact ⟨.transfer _ _, rfl, rfl, rfl, by rintro cb h; cases h⟩
    · simp [effPending, opN]
  | addKey k h1 =>
    refine ⟨rfl, rfl, rfl, rfl, rfl, rfl, ?_, ?_, rfl, rfl⟩
    · intro p hp
      simp only [effPending, List.mem_singleton] at hp; subst hp
      exact ⟨.addKey _, rfl, rfl, rfl, by rintro cb h; cases h⟩
    · simp [effPending, opN]

theorem newFixed_same {v v' : Vesting} {f : Option Nat}
    (h : v.isTerminating = true ∨ v'.isTerminating = false) : newFixed v v' f = f := by
  unfold newFixed
  cases v <;> cases v' <;> simp_all [Vesting.isTerminating]

theorem sinv_owner {cfg : Cfg} {w : World} {who : AccountId} {att : Nat} {c : OwnerCall}
    {c' : Lockup} {eff : Option Eff} (h : SInv w)
    (hx : exec (mkEnv cfg w who att none) w.c (.owner c) = .ok (c', eff)) :
    SInv (commit w att c' eff) := by
  obtain ⟨_, _, hterm, hr⟩ := execOwner_rel hx
  obtain ⟨h1, h2, h3, h4, _, _, h5, h6, h7, h8⟩ := ownerRel_facts hr
  have hfix : newFixed w.c.vesting c'.vesting w.fixedUnvested = w.fixedUnvested :=
    newFixed_same (.inr (by rw [h1]; exact hterm))
  have hU : terminatedUnvested c' = terminatedUnvested w.c := by
    unfold terminatedUnvested; rw [h1]
  constructor
  · intro p hp
    rcases List.mem_append.mp hp with hp | hp
    · exact (h.coh p hp).congr h4
    · exact (h5 p hp).1.congr h4
  · show psum opN (w.pend ++ effPending eff) ≤ busyN c'
    have := h.ops; rw [psum_append]; omega
  · intro p hp cb st hcb hn
    show ∃ u, c'.vesting = _
    rw [h1]
    rcases List.mem_append.mp hp with hp | hp
    · exact h.need p hp cb st hcb hn
    · rw [(h5 p hp).2.2.2.2 cb hcb] at hn; cases hn
  · show psum payN (w.pend ++ effPending eff) ≤ 1
    have := h.pays; rw [psum_append]; omega
  · intro p hp
    show _ ≤ terminatedUnvested c'
    rw [hU]
    rcases List.mem_append.mp hp with hp | hp
    · exact h.payLe p hp
    · rw [(h5 p hp).2.2.2.1]; omega
  · show FixInv c' (newFixed w.c.vesting c'.vesting w.fixedUnvested)
    rw [hfix]
    have := h.fix
    unfold FixInv at this ⊢
    rw [h1, h2, h3]; exact this
  · show w.paid = c'.info.terminationWithdrawn + psum paidAmt (w.pend ++ effPending eff)
    rw [psum_append, h8, h2]; exact h.paid
  · show c'.info.lockupAmount < two128
    rw [h2]; exact h.amt

theorem terminating_of_needs {w : World} (h : SInv w) (hv : w.c.vesting.isTerminating = false)
    {p : Pending} (hp : p ∈ w.pend) {cb : Callback} (hcb : p.cb = some cb) : cb.needs = none := by
  cases hn : cb.needs with
  | none => rfl
  | some st =>
    obtain ⟨u, h1⟩ := h.need p hp cb st hcb hn
    rw [h1] at hv; cases hv

theorem payAmt_zero_of_needs {p : Pending} (h : ∀ cb, p.cb = some cb → cb.needs ≠ some .withdrawingFromAccount) :
    payAmt p = 0 ∧ payN p = 0 := by
  unfold payAmt payN
  cases hcb : p.cb with
  | none => exact ⟨rfl, rfl⟩
  | some cb =>
    cases cb with
    | onWithdrawUnvested a r => exact absurd rfl (h _ hcb)
    | _ => exact ⟨rfl, rfl⟩

theorem psum_zero_of_all {f : Pending → Nat} {l : List Pending} (h : ∀ p ∈ l, f p = 0) :
    psum f l = 0 := by
  induction l with
  | nil => rfl
  | cons x t ih =>
    rw [psum_cons, h x (by simp), ih (fun p hp => h p (by simp [hp]))]

theorem all_zero_of_psum {f : Pending → Nat} {l : List Pending} (h : psum f l = 0) :
    ∀ p ∈ l, f p = 0 := by
  intro p hp
  have := psum_mem_le f hp
  omega

/-- The unvested amounts are `u128`. -/
theorem getUnvestedAmount_lt {e : Env} {s : Lockup} {vs : Schedule} {u : Nat}
    (ha : s.info.lockupAmount < two128) (hv : s.vesting.isTerminating = false)
    (h : getUnvestedAmount e s vs = .ok u) : u < two128 := by
  have hs : ∀ {x}, scheduleUnvested s.info.lockupAmount e.now vs = .ok x → x < two128 := by
    intro x hx
    unfold scheduleUnvested at hx
    split at hx
    · rw [pure_ok] at hx; omega
    · split at hx
      · rw [pure_ok] at hx; subst hx; exact two128_pos
      · simp only [bind_ok, asU128_ok] at hx
        obtain ⟨_, _, _, _, _, _, _, _, h1, h2⟩ := hx
        rw [h2]; exact h1
  unfold getUnvestedAmount at h
  cases hc : s.vesting with
  | none => rw [hc, pure_ok] at h; subst h; exact two128_pos
  | terminating u st => rw [hc] at hv; cases hv
  | hash b => rw [hc] at h; exact hs h
  | schedule v => rw [hc] at h; exact hs h

theorem assertVesting_not_terminating {e : Env} {s : Lockup} {a : Option ScheduleWithSalt}
    {vs : Schedule} (h : assertVesting e s a = .ok vs) :
    s.vesting.isTerminating = false ∧ s.vesting ≠ .none := by
  unfold assertVesting at h
  cases hc : s.vesting with
  | none => simp [hc, throw_ok] at h
  | terminating u st => simp [hc, throw_ok] at h
  | hash b => exact ⟨rfl, by simp⟩
  | schedule v => exact ⟨rfl, by simp⟩

theorem fix_none_of_active {w : World} (h : SInv w) (hv : w.c.vesting.isTerminating = false)
    (hn : w.c.vesting ≠ .none) : w.fixedUnvested = none := by
  have hf := h.fix
  cases hx : w.fixedUnvested with
  | none => rfl
  | some f =>
    rw [hx] at hf
    rcases hf.2.2 with ⟨u, st, h1, _⟩ | ⟨h1, _⟩
    · rw [h1] at hv; cases hv
    · exact absurd h1 hn

theorem sinv_terminate {w : World} {att : Nat} {u : Nat} {st : TStatus}
    (h : SInv w) (hv : w.c.vesting.isTerminating = false) (hn : w.c.vesting ≠ .none)
    (hu : 0 < u) (hlt : u < two128) :
    SInv (commit w att { w.c with vesting := .terminating u st } none) := by
  have hf := fix_none_of_active h hv hn
  have hfix := h.fix
  rw [hf] at hfix
  have hno : ∀ p ∈ w.pend, payAmt p = 0 ∧ payN p = 0 := fun p hp =>
    payAmt_zero_of_needs (fun cb hcb => by rw [terminating_of_needs h hv hp hcb]; simp)
  constructor
  · intro p hp
    simp only [commit, effPending, List.append_nil] at hp
    exact (h.coh p hp).congr rfl
  · have := h.ops
    simpa [commit, effPending, busyN] using this
  · intro p hp cb st' hcb hn'
    simp only [commit, effPending, List.append_nil] at hp
    rw [terminating_of_needs h hv hp hcb] at hn'; cases hn'
  · simpa [commit, effPending] using h.pays
  · intro p hp
    simp only [commit, effPending, List.append_nil] at hp
    rw [(hno p hp).1]; omega
  · have : newFixed w.c.vesting (.terminating u st) w.fixedUnvested = some u := by
      unfold newFixed; rw [hv]
    show FixInv _ (newFixed w.c.vesting (.terminating u st) w.fixedUnvested)
    have h0 : w.c.info.terminationWithdrawn = 0 := hfix.2
    rw [this]
    exact ⟨hlt, hu, .inl ⟨u, st, rfl, hu, by show u + w.c.info.terminationWithdrawn = u; omega⟩⟩
  · simpa [commit, effPending] using h.paid
  · exact h.amt

/-- Changing only status fields of a termination keeps `FixInv`. -/
theorem fixInv_status {c c' : Lockup} {f : Option Nat} {u : Nat} {st st' : TStatus}
    (h : FixInv c f) (hv : c.vesting = .terminating u st) (hv' : c'.vesting = .terminating u st')
    (hw : c'.info.terminationWithdrawn = c.info.terminationWithdrawn) : FixInv c' f := by
  unfold FixInv at h ⊢
  cases f with
  | none => rw [hv] at h; cases h.1
  | some f =>
    refine ⟨h.1, h.2.1, .inl ⟨u, st', hv', ?_⟩⟩
    rcases h.2.2 with ⟨u', st1, h1, h2, h3⟩ | ⟨h1, _⟩
    · rw [hv] at h1; cases h1
      exact ⟨h2, by rw [hw]; exact h3⟩
    · rw [hv] at h1; cases h1

/-- Starting a pool operation of the termination procedure. -/
theorem sinv_prepare {w : World} {att : Nat} {si : StakingInfo} {u : Nat} {st st' : TStatus}
    {ext : Ext} {cb : Callback}
    (h : SInv w) (hs : w.c.staking = some si) (hb : si.busy = false)
    (hv : w.c.vesting = .terminating u st)
    (hst : st ≠ .unstakingInProgress ∧ st ≠ .withdrawingFromPool ∧ st ≠ .withdrawingFromAccount)
    (hcoh : Coh w.c ext (some cb)) (hop : cb.isOp = true) (hneed : cb.needs = some st') :
    SInv (commit w att { w.c with vesting := .terminating u st',
                                  staking := some ⟨si.pool, true, si.deposit⟩ }
      (some ⟨ext, some cb⟩)) := by
  have hnone : ∀ p ∈ w.pend, ∀ cb, p.cb = some cb → cb.needs = none := by
    intro p hp cb hcb
    cases hn : cb.needs with
    | none => rfl
    | some x =>
      obtain ⟨u', h1⟩ := h.need p hp cb x hcb hn
      rw [hv] at h1; cases h1
      cases cb <;> simp_all [Callback.needs]
  have hpay0 : payN ⟨ext, some cb, .sent⟩ = 0 ∧ payAmt ⟨ext, some cb, .sent⟩ = 0 := by
    cases cb <;> simp_all [Callback.isOp, payN, payAmt]
  constructor
  · intro p hp
    rcases List.mem_append.mp hp with hp | hp
    · exact (h.coh p hp).congr rfl
    · simp only [effPending, List.mem_singleton] at hp; subst hp
      exact hcoh.congr rfl
  · have := h.ops
    rw [busyN_idle hs hb] at this
    simp only [commit, effPending, psum_append, psum_cons, psum_nil, busyN, opN, hop]
    simp only [if_true]; omega
  · intro p hp cb' st'' hcb hn'
    rcases List.mem_append.mp hp with hp | hp
    · rw [hnone p hp cb' hcb] at hn'; cases hn'
    · simp only [effPending, List.mem_singleton] at hp; subst hp
      cases hcb
      rw [hneed] at hn'; cases hn'
      exact ⟨u, rfl⟩
  · have := h.pays
    simp only [commit, effPending, psum_append, psum_cons, psum_nil, hpay0.1]; omega
  · intro p hp
    have hU : terminatedUnvested w.c = u := by simp [terminatedUnvested, hv]
    rcases List.mem_append.mp hp with hp | hp
    · have := h.payLe p hp
      rw [hU] at this
      simpa [commit, terminatedUnvested] using this
    · simp only [effPending, List.mem_singleton] at hp; subst hp
      rw [hpay0.2]; omega
  · have hf : newFixed w.c.vesting (.terminating u st') w.fixedUnvested = w.fixedUnvested :=
      newFixed_same (.inl (by rw [hv]; rfl))
    show FixInv _ (newFixed w.c.vesting (.terminating u st') w.fixedUnvested)
    rw [hf]
    exact fixInv_status h.fix hv rfl rfl
  · have := h.paid
    simp only [commit, effPending, psum_append, psum_cons, psum_nil, paidAmt, Phase.ok]
    simpa using this
  · exact h.amt

/-- Starting a payment of unvested tokens. -/
theorem sinv_pay {w : World} {att : Nat} {u a : Nat} {r : AccountId}
    (h : SInv w) (hv : w.c.vesting = .terminating u .readyToWithdraw) (ha : a ≤ u) :
    SInv (commit w att { w.c with vesting := .terminating u .withdrawingFromAccount }
      (some ⟨.transfer r a, some (.onWithdrawUnvested a r)⟩)) := by
  have hnone : ∀ p ∈ w.pend, ∀ cb, p.cb = some cb → cb.needs = none := by
    intro p hp cb hcb
    cases hn : cb.needs with
    | none => rfl
    | some x =>
      obtain ⟨u', h1⟩ := h.need p hp cb x hcb hn
      rw [hv] at h1; cases h1
      cases cb <;> simp [Callback.needs] at hn
  have hno : ∀ p ∈ w.pend, payAmt p = 0 ∧ payN p = 0 := fun p hp =>
    payAmt_zero_of_needs (fun cb hcb => by rw [hnone p hp cb hcb]; simp)
  constructor
  · intro p hp
    rcases List.mem_append.mp hp with hp | hp
    · exact (h.coh p hp).congr rfl
    · simp only [effPending, List.mem_singleton] at hp; subst hp
      exact .pay r a
  · have := h.ops
    simp only [commit, effPending, psum_append, psum_cons, psum_nil, opN, Callback.isOp]
    simpa [busyN] using this
  · intro p hp cb' st'' hcb hn'
    rcases List.mem_append.mp hp with hp | hp
    · rw [hnone p hp cb' hcb] at hn'; cases hn'
    · simp only [effPending, List.mem_singleton] at hp; subst hp
      cases hcb
      simp only [Callback.needs, Option.some.injEq] at hn'; subst hn'
      exact ⟨u, rfl⟩
  · have : psum payN w.pend = 0 := psum_zero_of_all (fun p hp => (hno p hp).2)
    simp only [commit, effPending, psum_append, psum_cons, psum_nil, this, payN]; omega
  · intro p hp
    rcases List.mem_append.mp hp with hp | hp
    · rw [(hno p hp).1]; omega
    · simp only [effPending, List.mem_singleton] at hp; subst hp
      exact ha
  · have hf : newFixed w.c.vesting (.terminating u .withdrawingFromAccount) w.fixedUnvested
        = w.fixedUnvested := newFixed_same (.inl (by rw [hv]; rfl))
    show FixInv _ (newFixed w.c.vesting (.terminating u .withdrawingFromAccount) w.fixedUnvested)
    rw [hf]
    exact fixInv_status h.fix hv rfl rfl
  · have := h.paid
    simp only [commit, effPending, psum_append, psum_cons, psum_nil, paidAmt, Phase.ok]
    simpa using this
  · exact h.amt

theorem sinv_foundation {cfg : Cfg} {w : World} {who : AccountId} {att : Nat} {c : FoundationCall}
    {c' : Lockup} {eff : Option Eff} (h : SInv w)
    (hx : exec (mkEnv cfg w who att none) w.c (.foundation c) = .ok (c', eff)) :
    SInv (commit w att c' eff) := by
  obtain ⟨_, _, hr⟩ := execFoundation_rel hx
  cases hr with
  | terminate arg vs u st h1 h2 h3 h4 h5 =>
    obtain ⟨h6, h7⟩ := assertVesting_not_terminating h1
    exact sinv_terminate h h6 h7 h4 (getUnvestedAmount_lt h.amt h6 h3)
  | prepareUnstake si u h1 h2 h3 =>
    exact sinv_prepare h h1 h2 h3 (by simp) (.tStaked _) rfl rfl
  | prepareWithdraw si u h1 h2 h3 =>
    exact sinv_prepare h h1 h2 h3 (by simp) (.tUnstaked _) rfl rfl
  | withdraw r u h1 h2 h3 => exact sinv_pay h h1 (by omega)

/-! ## Callbacks and receipts -/

/-- A callback that leaves the vesting, the withdrawn amount and the foundation alone. -/
theorem sinv_cb_plain {w : World} {i : Nat} {ext : Ext} {cb : Callback} {r : PResult}
    {c' : Lockup} {eff : Option Eff} (h : SInv w) (hi : w.pend[i]? = some ⟨ext, some cb, .done r⟩)
    (hw : c'.whitelist = w.c.whitelist) (hv : c'.vesting = w.c.vesting)
    (hwd : c'.info.terminationWithdrawn = w.c.info.terminationWithdrawn)
    (hf : c'.foundation = w.c.foundation)
    (hl : c'.info.lockupAmount = w.c.info.lockupAmount)
    (hnp : payN ⟨ext, some cb, .done r⟩ = 0)
    (hops : psum opN (w.pend.eraseIdx i) + psum opN (effPending eff) ≤ busyN c')
    (heff : ∀ q ∈ effPending eff, Coh w.c q.ext q.cb ∧ payN q = 0 ∧ payAmt q = 0 ∧
      ∀ cb' st, q.cb = some cb' → cb'.needs = some st → cb.needs = some st) :
    SInv (commit { w with pend := w.pend.eraseIdx i } 0 c' eff) := by
  have hmem := mem_of_getElem?' hi
  have hU : terminatedUnvested c' = terminatedUnvested w.c := by
    unfold terminatedUnvested; rw [hv]
  have hpe0 : psum payN (effPending eff) = 0 := psum_zero_of_all (fun q hq => (heff q hq).2.1)
  have hpa : psum paidAmt (effPending eff) = 0 := psum_zero_of_all (fun q hq => by
    simp [paidAmt, (heff q hq).2.2.1])
  have hpp : paidAmt ⟨ext, some cb, .done r⟩ = 0 := by
    cases cb <;> simp_all [paidAmt, payAmt, payN]
  constructor
  · intro q hq
    rcases List.mem_append.mp hq with hq | hq
    · exact (h.coh q (mem_of_mem_eraseIdx' hq)).congr hw
    · exact (heff q hq).1.congr hw
  · show psum opN (w.pend.eraseIdx i ++ effPending eff) ≤ busyN c'
    rw [psum_append]; exact hops
  · intro q hq cb' st hcb hn
    show ∃ u, c'.vesting = _
    rw [hv]
    rcases List.mem_append.mp hq with hq | hq
    · exact h.need q (mem_of_mem_eraseIdx' hq) cb' st hcb hn
    · exact h.need _ hmem cb st rfl ((heff q hq).2.2.2 cb' st hcb hn)
  · show psum payN (w.pend.eraseIdx i ++ effPending eff) ≤ 1
    have h1 := h.pays
    rw [psum_eraseIdx payN hi] at h1
    rw [psum_append]; omega
  · intro q hq
    show _ ≤ terminatedUnvested c'
    rw [hU]
    rcases List.mem_append.mp hq with hq | hq
    · exact h.payLe q (mem_of_mem_eraseIdx' hq)
    · rw [(heff q hq).2.2.1]; omega
  · have hnf : newFixed w.c.vesting c'.vesting w.fixedUnvested = w.fixedUnvested := by
      rw [hv]; apply newFixed_same
      cases w.c.vesting.isTerminating <;> simp
    show FixInv c' (newFixed w.c.vesting c'.vesting w.fixedUnvested)
    rw [hnf]
    have := h.fix
    unfold FixInv at this ⊢
    rw [hv, hwd, hf]; exact this
  · show w.paid = c'.info.terminationWithdrawn + psum paidAmt (w.pend.eraseIdx i ++ effPending eff)
    have h1 := h.paid
    rw [psum_eraseIdx paidAmt hi] at h1
    rw [psum_append, hwd]; omega
  · show c'.info.lockupAmount < two128
    rw [hl]; exact h.amt

/-- A callback that only moves the termination status and makes the pool idle. -/
theorem sinv_cb_status {w : World} {i : Nat} {ext : Ext} {cb : Callback} {r : PResult}
    {c' : Lockup} {u : Nat} {old st st0 : TStatus} (h : SInv w)
    (hi : w.pend[i]? = some ⟨ext, some cb, .done r⟩)
    (hop : cb.isOp = true) (hneed : cb.needs = some st0)
    (hv : w.c.vesting = .terminating u old) (hv' : c'.vesting = .terminating u st)
    (hw : c'.whitelist = w.c.whitelist)
    (hwd : c'.info.terminationWithdrawn = w.c.info.terminationWithdrawn)
    (hl : c'.info.lockupAmount = w.c.info.lockupAmount) :
    SInv (commit { w with pend := w.pend.eraseIdx i } 0 c' none) := by
  have hmem := mem_of_getElem?' hi
  have hops := h.ops
  rw [psum_eraseIdx opN hi] at hops
  have hone : opN ⟨ext, some cb, .done r⟩ = 1 := by simp [opN, hop]
  have hb := busyN_le w.c
  have hrest : psum opN (w.pend.eraseIdx i) = 0 := by omega
  have hU : terminatedUnvested c' = terminatedUnvested w.c := by
    unfold terminatedUnvested; rw [hv, hv']
  obtain ⟨u0, hu0⟩ := h.need _ hmem cb st0 rfl hneed
  have hnone : ∀ q ∈ w.pend.eraseIdx i, ∀ cb', q.cb = some cb' → cb'.needs = none := by
    intro q hq cb' hcb
    have hz := all_zero_of_psum hrest q hq
    cases hn : cb'.needs with
    | none => rfl
    | some x =>
      obtain ⟨u', h1⟩ := h.need q (mem_of_mem_eraseIdx' hq) cb' x hcb hn
      rw [hu0] at h1; cases h1
      have hno : cb'.isOp = false := by
        cases hb : cb'.isOp with
        | false => rfl
        | true => simp [opN, hcb, hb] at hz
      cases cb' <;> simp [Callback.isOp, Callback.needs] at hno hn
      subst hn
      cases cb <;> simp [Callback.isOp, Callback.needs] at hop hneed
  have hpp : paidAmt ⟨ext, some cb, .done r⟩ = 0 := by
    cases cb <;> simp_all [paidAmt, payAmt, Callback.isOp]
  constructor
  · intro q hq
    simp only [commit, effPending, List.append_nil] at hq
    exact (h.coh q (mem_of_mem_eraseIdx' hq)).congr hw
  · show psum opN (w.pend.eraseIdx i ++ []) ≤ busyN c'
    rw [List.append_nil, hrest]; omega
  · intro q hq cb' st' hcb hn
    simp only [commit, effPending, List.append_nil] at hq
    rw [hnone q hq cb' hcb] at hn; cases hn
  · show psum payN (w.pend.eraseIdx i ++ []) ≤ 1
    have h1 := h.pays
    rw [psum_eraseIdx payN hi] at h1
    rw [List.append_nil]; omega
  · intro q hq
    simp only [commit, effPending, List.append_nil] at hq
    show _ ≤ terminatedUnvested c'
    rw [hU]; exact h.payLe q (mem_of_mem_eraseIdx' hq)
  · have hnf : newFixed w.c.vesting c'.vesting w.fixedUnvested = w.fixedUnvested :=
      newFixed_same (.inl (by rw [hv]; rfl))
    show FixInv c' (newFixed w.c.vesting c'.vesting w.fixedUnvested)
    rw [hnf]
    exact fixInv_status h.fix hv hv' hwd
  · show w.paid = c'.info.terminationWithdrawn + psum paidAmt (w.pend.eraseIdx i ++ [])
    have h1 := h.paid
    rw [psum_eraseIdx paidAmt hi] at h1
    rw [List.append_nil, hwd]; omega
  · show c'.info.lockupAmount < two128
    rw [hl]; exact h.amt

/-- Facts available when the callback of a payment runs. -/
theorem pay_facts {w : World} {i : Nat} {ext : Ext} {a : Nat} {rc : AccountId} {r : PResult}
    (h : SInv w) (hi : w.pend[i]? = some ⟨ext, some (.onWithdrawUnvested a rc), .done r⟩) :
    ∃ u f, w.c.vesting = .terminating u .withdrawingFromAccount ∧ a ≤ u ∧
      w.fixedUnvested = some f ∧ f < two128 ∧ u + w.c.info.terminationWithdrawn = f ∧ 0 < u ∧
      ∀ q ∈ w.pend.eraseIdx i, (payAmt q = 0 ∧ payN q = 0) ∧
        ∀ cb, q.cb = some cb → cb.needs = none := by
  have hmem := mem_of_getElem?' hi
  obtain ⟨u, hv⟩ := h.need _ hmem _ _ rfl rfl
  have hU : terminatedUnvested w.c = u := by simp [terminatedUnvested, hv]
  have hle : a ≤ u := by rw [← hU]; exact h.payLe _ hmem
  have hpays := h.pays
  rw [psum_eraseIdx payN hi] at hpays
  have hone : payN ⟨ext, some (.onWithdrawUnvested a rc), .done r⟩ = 1 := rfl
  have hz : psum payN (w.pend.eraseIdx i) = 0 := by omega
  have hfix := h.fix
  have hrest : ∀ q ∈ w.pend.eraseIdx i, (payAmt q = 0 ∧ payN q = 0) ∧
        ∀ cb, q.cb = some cb → cb.needs = none := by
    intro q hq
    have h0 := all_zero_of_psum hz q hq
    have hn : ∀ cb, q.cb = some cb → cb.needs = none := by
      intro cb hcb
      cases hn : cb.needs with
      | none => rfl
      | some x =>
        obtain ⟨u', h1⟩ := h.need q (mem_of_mem_eraseIdx' hq) cb x hcb hn
        rw [hv] at h1; cases h1
        cases cb <;> simp [Callback.needs, payN, hcb] at hn h0
    exact ⟨payAmt_zero_of_needs (fun cb hcb => by rw [hn cb hcb]; simp), hn⟩
  cases hf : w.fixedUnvested with
  | none => rw [hf] at hfix; have := hfix.1; rw [hv] at this; cases this
  | some f =>
    rw [hf] at hfix
    obtain ⟨h1, _, ⟨u', st', h2, h3, h4⟩ | ⟨h2, _⟩⟩ := hfix
    · rw [hv] at h2; cases h2
      exact ⟨u, f, hv, hle, rfl, h1, h4, h3, hrest⟩
    · rw [hv] at h2; cases h2

/-- The callback of a payment never panics. -/
theorem pay_callback_ok {cfg : Cfg} {w : World} {i : Nat} {ext : Ext} {a : Nat} {rc : AccountId}
    {r : PResult} (h : SInv w)
    (hi : w.pend[i]? = some ⟨ext, some (.onWithdrawUnvested a rc), .done r⟩) :
    ∃ c', exec (mkEnv cfg { w with pend := w.pend.eraseIdx i } cfg.self 0 (some r)) w.c
      (.callback (.onWithdrawUnvested a rc)) = .ok (c', none) := by
  obtain ⟨u, f, hv, hle, hf, hlt, hsum, _⟩ := pay_facts h hi
  simp only [exec, execCallback, onWithdrawUnvested, bind_ok, notPayable_ok, assertSelf_ok,
    isPromiseSuccess_ok]
  cases hr : r.isOk with
  | true =>
    have : ∃ s1, recordWithdrawn w.c a = .ok s1 := by
      simp only [recordWithdrawn, bind_ok, addU128_ok]
      by_cases hu : terminatedUnvested w.c > a
      · exact ⟨_, _, ⟨by omega, rfl⟩, by rw [if_pos hu]; rfl⟩
      · exact ⟨_, _, ⟨by omega, rfl⟩, by rw [if_neg hu]; rfl⟩
    obtain ⟨s1, hs1⟩ := this
    refine ⟨s1, (), rfl, (), rfl, true, ⟨r, rfl, hr.symm⟩, ?_⟩
    simp only [if_true, bind_ok, pure_ok, Prod.mk.injEq]
    exact ⟨s1, hs1, rfl, trivial⟩
  | false =>
    refine ⟨{ w.c with vesting := .terminating u .readyToWithdraw }, (), rfl, (), rfl, false,
      ⟨r, rfl, hr.symm⟩, ?_⟩
    rw [if_neg (by simp)]
    simp only [bind_ok, setTermination_ok, pure_ok, Prod.mk.injEq]
    exact ⟨_, ⟨u, _, hv, rfl⟩, rfl, trivial⟩

theorem sinv_cb_pay {w : World} {i : Nat} {ext : Ext} {a : Nat} {rc : AccountId} {r : PResult}
    {c' : Lockup} {eff : Option Eff}
    (h : SInv w) (hi : w.pend[i]? = some ⟨ext, some (.onWithdrawUnvested a rc), .done r⟩)
    (hr : CbRel w.c r (.onWithdrawUnvested a rc) c' eff) :
    SInv (commit { w with pend := w.pend.eraseIdx i } 0 c' eff) := by
  obtain ⟨u, f, hv, hle, hf, hlt, hsum, hu0, hrest⟩ := pay_facts h hi
  have hU : terminatedUnvested w.c = u := by simp [terminatedUnvested, hv]
  have hops := h.ops
  rw [psum_eraseIdx opN hi] at hops
  have hpaid := h.paid
  rw [psum_eraseIdx paidAmt hi] at hpaid
  have hpz : psum payN (w.pend.eraseIdx i) = 0 := psum_zero_of_all (fun q hq => (hrest q hq).1.2)
  have hpa : psum paidAmt (w.pend.eraseIdx i) = 0 := psum_zero_of_all (fun q hq => by
    simp [paidAmt, (hrest q hq).1.1])
  have hfix := h.fix
  have hnf : ∀ v, newFixed w.c.vesting v w.fixedUnvested = w.fixedUnvested := fun v =>
    newFixed_same (.inl (by rw [hv]; rfl))
  have hpaidok : ∀ b, r.isOk = b →
      paidAmt ⟨ext, some (.onWithdrawUnvested a rc), .done r⟩ = if b then a else 0 := by
    intro b hb; simp [paidAmt, Phase.ok, payAmt, hb]
  have key : ∀ c'' : Lockup, c''.whitelist = w.c.whitelist → c''.staking = w.c.staking →
      c''.info.lockupAmount = w.c.info.lockupAmount →
      w.paid = c''.info.terminationWithdrawn → FixInv c'' w.fixedUnvested →
      SInv (commit { w with pend := w.pend.eraseIdx i } 0 c'' none) := by
    intro c'' h1 h2 h3 h4 h5
    constructor
    · intro q hq
      simp only [commit, effPending, List.append_nil] at hq
      exact (h.coh q (mem_of_mem_eraseIdx' hq)).congr h1
    · show psum opN (w.pend.eraseIdx i ++ []) ≤ busyN c''
      have : busyN c'' = busyN w.c := by unfold busyN; rw [h2]
      rw [List.append_nil]; omega
    · intro q hq cb' st' hcb hn
      simp only [commit, effPending, List.append_nil] at hq
      rw [(hrest q hq).2 cb' hcb] at hn; cases hn
    · show psum payN (w.pend.eraseIdx i ++ []) ≤ 1
      rw [List.append_nil]; omega
    · intro q hq
      simp only [commit, effPending, List.append_nil] at hq
      rw [(hrest q hq).1.1]; omega
    · show FixInv c'' (newFixed w.c.vesting c''.vesting w.fixedUnvested)
      rw [hnf]; exact h5
    · show w.paid = c''.info.terminationWithdrawn + psum paidAmt (w.pend.eraseIdx i ++ [])
      rw [List.append_nil, hpa]; exact h4
    · show c''.info.lockupAmount < two128
      rw [h3]; exact h.amt
  rw [hf] at hfix
  cases hr with
  | depositOk _ _ _ hcb => rcases hcb with hcb | hcb <;> cases hcb
  | depositFailed _ _ _ hcb => rcases hcb with hcb | hcb <;> cases hcb
  | stakeLike _ _ hcb => rcases hcb with ⟨_, hcb⟩ | ⟨_, hcb⟩ | hcb <;> cases hcb
  | paidSome _ _ h1 h2 h3 =>
    rw [hpaidok true h1] at hpaid
    simp only [if_true] at hpaid
    refine key _ ?_ ?_ ?_ ?_ ?_ <;> try rfl
    · show w.paid = w.c.info.terminationWithdrawn + a
      omega
    · rw [hf, hU]
      refine ⟨hlt, hfix.2.1, .inl ⟨u - a, _, rfl, by omega, ?_⟩⟩
      show u - a + (w.c.info.terminationWithdrawn + a) = f
      omega
  | paidAll _ _ h1 h2 h3 =>
    rw [hpaidok true h1] at hpaid
    simp only [if_true] at hpaid
    refine key _ ?_ ?_ ?_ ?_ ?_ <;> try rfl
    · show w.paid = w.c.info.terminationWithdrawn + a
      omega
    · rw [hf]
      refine ⟨hlt, hfix.2.1, .inr ⟨rfl, rfl, ?_⟩⟩
      show w.c.info.terminationWithdrawn + a = f
      omega
  | paidFailed _ _ u' old h1 h2 =>
    rw [hpaidok false h1] at hpaid
    simp only [Bool.false_eq_true, if_false] at hpaid
    rw [hv] at h2; cases h2
    refine key _ ?_ ?_ ?_ ?_ ?_ <;> try rfl
    · show w.paid = w.c.info.terminationWithdrawn
      omega
    · exact fixInv_status h.fix hv rfl rfl

theorem op_last {w : World} {i : Nat} {p : Pending} (h : SInv w) (hi : w.pend[i]? = some p)
    (hop : opN p = 1) : psum opN (w.pend.eraseIdx i) = 0 ∧ busyN w.c = 1 := by
  have hops := h.ops
  rw [psum_eraseIdx opN hi] at hops
  have hb := busyN_le w.c
  omega

theorem sinv_callback {w : World} {i : Nat} {ext : Ext} {cb : Callback} {r : PResult}
    {c' : Lockup} {eff : Option Eff}
    (h : SInv w) (hi : w.pend[i]? = some ⟨ext, some cb, .done r⟩)
    (hr : CbRel w.c r cb c' eff) :
    SInv (commit { w with pend := w.pend.eraseIdx i } 0 c' eff) := by
  have hops := h.ops
  rw [psum_eraseIdx opN hi] at hops
  have hbN := busyN_le w.c
  have hr' := hr
  have heff0 : ∀ q ∈ effPending none, Coh w.c q.ext q.cb ∧ payN q = 0 ∧ payAmt q = 0 ∧
      ∀ cb' st, q.cb = some cb' → cb'.needs = some st → cb.needs = some st := by
    intro q hq; simp [effPending] at hq
  have hdep : ∀ (si : StakingInfo) (d : Nat), opN ⟨ext, some cb, .done r⟩ = 1 →
      payN ⟨ext, some cb, .done r⟩ = 0 →
      SInv (commit { w with pend := w.pend.eraseIdx i } 0 (withDeposit w.c si d) none) := by
    intro si d h1 h2
    refine sinv_cb_plain h hi rfl rfl rfl rfl rfl h2 ?_ heff0
    simp only [effPending, psum_nil]
    have := busyN_le (withDeposit w.c si d)
    omega
  cases hr with
  | whitelist p h1 h2 h3 =>
    refine sinv_cb_plain h hi rfl rfl rfl rfl rfl rfl ?_ heff0
    rw [busyN_none h2] at hops
    simp only [effPending, psum_nil]; omega
  | depositOk _ a si hcb =>
    rcases hcb with rfl | rfl <;> exact hdep _ _ rfl rfl
  | depositFailed _ a si hcb =>
    rcases hcb with rfl | rfl <;> exact hdep _ _ rfl rfl
  | withdrawOk a si => exact hdep _ _ rfl rfl
  | withdrawFailed a si => exact hdep _ _ rfl rfl
  | stakeLike _ si hcb =>
    rcases hcb with ⟨a, rfl⟩ | ⟨a, rfl⟩ | rfl <;> exact hdep _ _ rfl rfl
  | pollYes t h1 h2 h3 =>
    refine sinv_cb_plain h hi rfl rfl rfl rfl rfl rfl ?_ heff0
    show psum opN (w.pend.eraseIdx i) + 0 ≤ busyN w.c
    omega
  | pollNo h1 h2 =>
    refine sinv_cb_plain h hi rfl rfl rfl rfl rfl rfl ?_ heff0
    simp only [effPending, psum_nil]; omega
  | total n si => exact hdep _ _ rfl rfl
  | unstakedSome n si h1 h2 h3 h4 =>
    refine sinv_cb_plain h hi rfl rfl rfl rfl rfl rfl ?_ ?_
    · have h5 : opN ⟨ext, some .onUnstakedToWithdrawByOwner, .done r⟩ = 1 := rfl
      have h6 : psum opN (effPending (some ⟨.poolWithdraw si.pool n, some (.onWithdraw n)⟩)) = 1 :=
        rfl
      omega
    · intro q hq
      simp only [effPending, List.mem_singleton] at hq; subst hq
      refine ⟨.withdraw _ _, rfl, rfl, ?_⟩
      rintro cb' st h1 h2; cases h1; cases h2
  | unstakedNone si => exact hdep _ _ rfl rfl
  | tStakedSome n si h1 h2 h3 h4 =>
    refine sinv_cb_plain h hi rfl rfl rfl rfl rfl rfl ?_ ?_
    · have h5 : opN ⟨ext, some .onStakedToUnstake, .done r⟩ = 1 := rfl
      have h6 : psum opN (effPending
        (some ⟨.poolUnstake si.pool n, some (.onUnstakeForTermination n)⟩)) = 1 := rfl
      omega
    · intro q hq
      simp only [effPending, List.mem_singleton] at hq; subst hq
      refine ⟨.tUnstake _ _, rfl, rfl, ?_⟩
      rintro cb' st h1 h2; cases h1; exact h2
  | tStakedNone si u old h1 h2 h3 =>
    exact sinv_cb_status h hi rfl rfl h3 rfl rfl rfl rfl
  | tUnstake a si u old h1 h2 =>
    exact sinv_cb_status h hi rfl rfl h2 rfl rfl rfl rfl
  | tUnstakedSome n si h1 h2 h3 h4 =>
    refine sinv_cb_plain h hi rfl rfl rfl rfl rfl rfl ?_ ?_
    · have h5 : opN ⟨ext, some .onUnstakedToWithdraw, .done r⟩ = 1 := rfl
      have h6 : psum opN (effPending
        (some ⟨.poolWithdraw si.pool n, some (.onWithdrawForTermination n)⟩)) = 1 := rfl
      omega
    · intro q hq
      simp only [effPending, List.mem_singleton] at hq; subst hq
      refine ⟨.tWithdraw _ _, rfl, rfl, ?_⟩
      rintro cb' st h1 h2; cases h1; exact h2
  | tUnstakedNone si u old h1 h2 h3 =>
    exact sinv_cb_status h hi rfl rfl h3 rfl rfl rfl rfl
  | tWithdrawOk a si u old h1 h2 h3 =>
    exact sinv_cb_status h hi rfl rfl h3 rfl rfl rfl rfl
  | tWithdrawFailed a si u old h1 h2 h3 =>
    exact sinv_cb_status h hi rfl rfl h3 rfl rfl rfl rfl
  | paidSome a rc => exact sinv_cb_pay h hi hr'
  | paidAll a rc => exact sinv_cb_pay h hi hr'
  | paidFailed a rc => exact sinv_cb_pay h hi hr'

/-- A callback that panicked: only the receipt is gone. -/
theorem sinv_erase {w : World} {i : Nat} {p : Pending} (h : SInv w) (hi : w.pend[i]? = some p)
    (hp : paidAmt p = 0) : SInv { w with pend := w.pend.eraseIdx i } := by
  constructor
  · intro q hq; exact h.coh q (mem_of_mem_eraseIdx' hq)
  · have := h.ops; rw [psum_eraseIdx opN hi] at this
    show psum opN (w.pend.eraseIdx i) ≤ busyN w.c
    omega
  · intro q hq; exact h.need q (mem_of_mem_eraseIdx' hq)
  · have := h.pays; rw [psum_eraseIdx payN hi] at this
    show psum payN (w.pend.eraseIdx i) ≤ 1
    omega
  · intro q hq; exact h.payLe q (mem_of_mem_eraseIdx' hq)
  · exact h.fix
  · have := h.paid; rw [psum_eraseIdx paidAmt hi] at this
    show w.paid = w.c.info.terminationWithdrawn + psum paidAmt (w.pend.eraseIdx i)
    omega
  · exact h.amt

/-- What executing a receipt does to the fields the structural invariant talks about. -/
theorem runExt_facts (cfg : Cfg) (w : World) (p : Pending) (r : PResult) :
    (runExt cfg w p r).2.c = w.c ∧ (runExt cfg w p r).2.pend = w.pend ∧
    (runExt cfg w p r).2.bal = w.bal ∧ (runExt cfg w p r).2.now = w.now ∧
    (runExt cfg w p r).2.fixedUnvested = w.fixedUnvested ∧
    (runExt cfg w p r).2.queried = w.queried ∧
    (runExt cfg w p r).2.loss = w.loss := by
  unfold runExt
  split <;> (repeat' split) <;> exact ⟨rfl, rfl, rfl, rfl, rfl, rfl, rfl⟩

theorem paidAmt_of_payAmt {p : Pending} (h : payAmt p = 0) : paidAmt p = 0 := by
  unfold paidAmt; split
  · exact h
  · rfl

theorem runExt_paid {cfg : Cfg} {w : World} {ext : Ext} {cb : Option Callback} {r : PResult}
    {c : Lockup} (hc : Coh c ext cb) :
    (runExt cfg w ⟨ext, cb, .sent⟩ r).2.paid =
      w.paid + paidAmt ⟨ext, cb, .done (runExt cfg w ⟨ext, cb, .sent⟩ r).1⟩ := by
  cases hc
  case pay rc a =>
    simp only [runExt]
    by_cases h : r = .failed
    · simp [h, paidAmt, Phase.ok, PResult.isOk]
    · rw [if_neg h]
      have : r.isOk = true := by cases r <;> simp_all [PResult.isOk]
      simp [paidAmt, Phase.ok, this, payAmt]
  all_goals
    rw [paidAmt_of_payAmt rfl]
    simp only [runExt]
    (repeat' split) <;> simp_all

theorem sinv_execute {cfg : Cfg} {w : World} {i : Nat} {r : PResult} (h : SInv w) :
    SInv (execute cfg w i r) := by
  unfold execute
  split
  · rename_i ext cb hi
    have hmem := mem_of_getElem?' hi
    have hcoh := h.coh _ hmem
    have hp := runExt_paid (cfg := cfg) (w := w) (r := r) hcoh
    obtain ⟨h1, h2, h3, h4, h5, _⟩ := runExt_facts cfg w ⟨ext, cb, .sent⟩ r
    generalize hx : runExt cfg w ⟨ext, cb, .sent⟩ r = x at hp h1 h2 h3 h4 h5
    obtain ⟨r', w'⟩ := x
    simp only at hp h1 h2 h3 h4 h5 ⊢
    have hpaid := h.paid
    cases cb with
    | none =>
      simp only
      have hz : paidAmt ⟨ext, none, .done r'⟩ = 0 := by simp [paidAmt, payAmt]
      constructor
      · intro q hq; rw [h1]; exact h.coh q (mem_of_mem_eraseIdx' hq)
      · have := h.ops; rw [psum_eraseIdx opN hi] at this
        show psum opN (w.pend.eraseIdx i) ≤ busyN w'.c
        rw [h1]; omega
      · intro q hq; rw [h1]; exact h.need q (mem_of_mem_eraseIdx' hq)
      · have := h.pays; rw [psum_eraseIdx payN hi] at this
        show psum payN (w.pend.eraseIdx i) ≤ 1
        omega
      · intro q hq; rw [h1]; exact h.payLe q (mem_of_mem_eraseIdx' hq)
      · show FixInv w'.c w'.fixedUnvested
        rw [h1, h5]; exact h.fix
      · rw [psum_eraseIdx paidAmt hi] at hpaid
        have hz2 : paidAmt ⟨ext, none, .sent⟩ = 0 := by simp [paidAmt, payAmt]
        show w'.paid = w'.c.info.terminationWithdrawn + psum paidAmt (w.pend.eraseIdx i)
        rw [h1]; omega
      · show w'.c.info.lockupAmount < two128
        rw [h1]; exact h.amt
    | some cb =>
      simp only
      constructor
      · intro q hq; rw [h1]
        rcases mem_set_cases hq with hq | rfl
        · exact h.coh q hq
        · exact hcoh
      · have h6 := psum_set opN (q := ⟨ext, some cb, .done r'⟩) hi
        have h7 : opN ⟨ext, some cb, .done r'⟩ = opN ⟨ext, some cb, .sent⟩ := rfl
        have := h.ops
        show psum opN (w.pend.set i _) ≤ busyN w'.c
        rw [h1]; omega
      · intro q hq; rw [h1]
        rcases mem_set_cases hq with hq | rfl
        · exact h.need q hq
        · exact fun cb' st e => h.need ⟨ext, some cb, .sent⟩ hmem cb' st e
      · have h6 := psum_set payN (q := ⟨ext, some cb, .done r'⟩) hi
        have h7 : payN ⟨ext, some cb, .done r'⟩ = payN ⟨ext, some cb, .sent⟩ := rfl
        have := h.pays
        show psum payN (w.pend.set i _) ≤ 1
        omega
      · intro q hq; rw [h1]
        rcases mem_set_cases hq with hq | rfl
        · exact h.payLe q hq
        · exact h.payLe ⟨ext, some cb, .sent⟩ hmem
      · show FixInv w'.c w'.fixedUnvested
        rw [h1, h5]; exact h.fix
      · have h6 := psum_set paidAmt (q := ⟨ext, some cb, .done r'⟩) hi
        have h7 : paidAmt ⟨ext, some cb, .sent⟩ = 0 := by simp [paidAmt, Phase.ok]
        show w'.paid = w'.c.info.terminationWithdrawn + psum paidAmt (w.pend.set i _)
        rw [h1]; omega
      · show w'.c.info.lockupAmount < two128
        rw [h1]; exact h.amt
  · exact h

/-- Every call that the runtime delivers through `Ev.call` is by another account, so callbacks
called directly fail. -/
theorem callback_needs_self {cfg : Cfg} {w : World} {who : AccountId} {att : Nat} {cb : Callback}
    {r : Option PResult} {x : Lockup × Option Eff} (hw : who ≠ cfg.self) :
    exec (mkEnv cfg w who att r) w.c (.callback cb) ≠ .ok x := by
  obtain ⟨c', eff⟩ := x
  intro h
  simp only [exec, bind_ok, notPayable_ok] at h
  obtain ⟨_, _, h⟩ := h
  exact hw (execCallback_rel h).1

theorem sinv_callbackEv {cfg : Cfg} {w : World} {i : Nat} (h : SInv w) :
    SInv (callback cfg w i) := by
  unfold callback
  split
  · rename_i ext cb r hi
    rcases doCall_cases cfg { w with pend := w.pend.eraseIdx i } cfg.self 0 (some r)
      (.callback cb) with ⟨hd, hno⟩ | ⟨c', eff, hx, ha, hd⟩
    · rw [hd]
      apply sinv_erase h hi
      cases cb with
      | onWithdrawUnvested a rc =>
        exfalso
        obtain ⟨c', hc'⟩ := pay_callback_ok (cfg := cfg) h hi
        exact hno _ _ hc' (Nat.zero_le _)
      | _ => simp [paidAmt, payAmt]
    · rw [hd]
      simp only [exec, bind_ok] at hx
      obtain ⟨_, _, hx⟩ := hx
      obtain ⟨_, r', hr', hrel⟩ := execCallback_rel hx
      cases hr'
      exact sinv_callback h hi hrel
  · exact h

theorem sinv_step {cfg : Cfg} {w : World} (ev : Ev) (h : SInv w) : SInv (step cfg w ev) := by
  cases ev with
  | call who att c =>
    simp only [step]
    split
    · exact h
    · rename_i hw
      rcases doCall_cases cfg w who att none c with ⟨hd, _⟩ | ⟨c', eff, hx, ha, hd⟩
      · rw [hd]; exact h
      · rw [hd]
        cases c with
        | owner c => exact sinv_owner h hx
        | foundation c => exact sinv_foundation h hx
        | callback c => exact absurd hx (callback_needs_self hw)
  | execute i r => exact sinv_execute h
  | callback i => exact sinv_callbackEv h
  | arrive x =>
    simp only [step]
    split
    · exact ⟨h.coh, h.ops, h.need, h.pays, h.payLe, h.fix, h.paid, h.amt⟩
    · exact h
  | income x => exact ⟨h.coh, h.ops, h.need, h.pays, h.payLe, h.fix, h.paid, h.amt⟩
  | tick x => exact ⟨h.coh, h.ops, h.need, h.pays, h.payLe, h.fix, h.paid, h.amt⟩
  | poolReward x => exact ⟨h.coh, h.ops, h.need, h.pays, h.payLe, h.fix, h.paid, h.amt⟩
  | poolLoss x =>
    simp only [step]
    split
    · exact ⟨h.coh, h.ops, h.need, h.pays, h.payLe, h.fix, h.paid, h.amt⟩
    · exact h

theorem sinv_run {cfg : Cfg} {w : World} (evs : List Ev) (h : SInv w) : SInv (run cfg w evs) := by
  induction evs generalizing w with
  | nil => exact h
  | cons ev t ih => exact ih (sinv_step ev h)

end Verif.Lockup
