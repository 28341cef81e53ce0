import Verif.Whitelist.Model

/-!
# Whitelist: property theorems (C39, C40)
-/

namespace Verif.Whitelist

open Verif

/-! ## Vocabulary -/

/-- The pool is whitelisted, according to `is_whitelisted`. -/
def PoolIn (valid : AccountId → Bool) (s : State) (p : AccountId) : Prop :=
  isWhitelisted (mkEnv valid "viewer" 0) s p = .ok true

/-- The factory is whitelisted, according to `is_factory_whitelisted`. -/
def FactoryIn (valid : AccountId → Bool) (s : State) (f : AccountId) : Prop :=
  isFactoryWhitelisted (mkEnv valid "viewer" 0) s f = .ok true

/-- The call succeeds, returns `b` and leads to `s'`. -/
def Calls (valid : AccountId → Bool) (s : State) (ev : Ev) (s' : State) (b : Bool) : Prop :=
  exec (mkEnv valid ev.who ev.attached) s ev.call = .ok (s', b)

/-- The event is a successful call of the given method. -/
def Does (valid : AccountId → Bool) (c : Call) (s : State) (ev : Ev) : Prop :=
  ev.call = c ∧ ∃ s' b, Calls valid s ev s' b

/-! ## Helper lemmas -/

theorem contains_iff {m : UMap AccountId Unit} {a : AccountId} :
    m.contains a = true ↔ m.get a = some () := by
  unfold UMap.contains
  cases m.get a <;> simp

theorem poolIn_iff {valid : AccountId → Bool} {s : State} {p : AccountId} :
    PoolIn valid s p ↔ valid p = true ∧ s.whitelist.get p = some () := by
  simp only [PoolIn, isWhitelisted, bind_ok, require_ok, pure_ok, ← contains_iff]
  simp [mkEnv]

theorem factoryIn_iff {valid : AccountId → Bool} {s : State} {f : AccountId} :
    FactoryIn valid s f ↔ valid f = true ∧ s.factoryWhitelist.get f = some () := by
  simp only [FactoryIn, isFactoryWhitelisted, bind_ok, require_ok, pure_ok, ← contains_iff]
  simp [mkEnv]

/-- Only valid ids are stored. -/
structure WInv (valid : AccountId → Bool) (s : State) : Prop where
  pools : ∀ p, s.whitelist.get p = some () → valid p = true
  factories : ∀ f, s.factoryWhitelist.get f = some () → valid f = true

theorem assertFactoryOrFoundation_ok {e : Env} {s : State} {u : Unit} :
    assertFactoryOrFoundation e s = .ok u ↔
      s.factoryWhitelist.contains e.predecessor = true ∨ e.predecessor = s.foundation := by
  unfold assertFactoryOrFoundation assertFoundation
  cases s.factoryWhitelist.contains e.predecessor <;> simp [pure_ok]

theorem exec_ok {valid : AccountId → Bool} {who : AccountId} {att : Nat} {s s' : State} {c : Call}
    {b : Bool} : exec (mkEnv valid who att) s c = .ok (s', b) ↔ att = 0 ∧
      match c with
      | .addPool p => valid p = true ∧
          (s.factoryWhitelist.contains who = true ∨ who = s.foundation) ∧
          s' = { s with whitelist := s.whitelist.insert p () } ∧ b = !s.whitelist.contains p
      | .removePool p => valid p = true ∧ who = s.foundation ∧
          s' = { s with whitelist := s.whitelist.remove p } ∧ b = s.whitelist.contains p
      | .addFactory f => valid f = true ∧ who = s.foundation ∧
          s' = { s with factoryWhitelist := s.factoryWhitelist.insert f () } ∧
          b = !s.factoryWhitelist.contains f
      | .removeFactory f => valid f = true ∧ who = s.foundation ∧
          s' = { s with factoryWhitelist := s.factoryWhitelist.remove f } ∧
          b = s.factoryWhitelist.contains f := by
  cases c with
  | addPool p =>
    simp only [exec, addStakingPool, notPayable, bind_ok, require_ok, pure_ok,
      assertFactoryOrFoundation_ok, Prod.mk.injEq]
    constructor
    · rintro ⟨_, h1, _, h2, _, h3, rfl, rfl⟩; exact ⟨h1, h2, h3, rfl, rfl⟩
    · rintro ⟨h1, h2, h3, rfl, rfl⟩; exact ⟨(), h1, (), h2, (), h3, rfl, rfl⟩
  | removePool p =>
    simp only [exec, removeStakingPool, notPayable, bind_ok, require_ok, pure_ok,
      assertFoundation, Prod.mk.injEq]
    constructor
    · rintro ⟨_, h1, _, h2, _, h3, rfl, rfl⟩; exact ⟨h1, h3, h2, rfl, rfl⟩
    · rintro ⟨h1, h2, h3, rfl, rfl⟩; exact ⟨(), h1, (), h3, (), h2, rfl, rfl⟩
  | addFactory f =>
    simp only [exec, Whitelist.addFactory, notPayable, bind_ok, require_ok, pure_ok,
      assertFoundation, Prod.mk.injEq]
    constructor
    · rintro ⟨_, h1, _, h2, _, h3, rfl, rfl⟩; exact ⟨h1, h2, h3, rfl, rfl⟩
    · rintro ⟨h1, h2, h3, rfl, rfl⟩; exact ⟨(), h1, (), h2, (), h3, rfl, rfl⟩
  | removeFactory f =>
    simp only [exec, Whitelist.removeFactory, notPayable, bind_ok, require_ok, pure_ok,
      assertFoundation, Prod.mk.injEq]
    constructor
    · rintro ⟨_, h1, _, h2, _, h3, rfl, rfl⟩; exact ⟨h1, h3, h2, rfl, rfl⟩
    · rintro ⟨h1, h2, h3, rfl, rfl⟩; exact ⟨(), h1, (), h3, (), h2, rfl, rfl⟩

theorem step_cases (valid : AccountId → Bool) (s : State) (ev : Ev) :
    (∃ b, Calls valid s ev (step valid s ev) b) ∨
    ((∀ s' b, ¬ Calls valid s ev s' b) ∧ step valid s ev = s) := by
  unfold Calls step
  cases h : exec (mkEnv valid ev.who ev.attached) s ev.call with
  | ok r => exact .inl ⟨r.2, rfl⟩
  | error m => exact .inr ⟨fun _ _ h' => (by cases h'), rfl⟩

theorem winv_step {valid : AccountId → Bool} {s : State} (h : WInv valid s) (ev : Ev) :
    WInv valid (step valid s ev) := by
  rcases step_cases valid s ev with ⟨b, hc⟩ | ⟨_, hs⟩
  · generalize step valid s ev = s' at hc
    obtain ⟨_, hx⟩ := exec_ok.mp hc
    cases hcall : ev.call with
    | addPool p =>
      rw [hcall] at hx; obtain ⟨h1, _, rfl, _⟩ := hx
      refine ⟨fun q hq => ?_, h.factories⟩
      simp only [UMap.get_insert] at hq
      split at hq
      · rename_i he; subst he; exact h1
      · exact h.pools q hq
    | removePool p =>
      rw [hcall] at hx; obtain ⟨_, _, rfl, _⟩ := hx
      refine ⟨fun q hq => ?_, h.factories⟩
      simp only [UMap.get_remove] at hq
      split at hq
      · cases hq
      · exact h.pools q hq
    | addFactory f =>
      rw [hcall] at hx; obtain ⟨h1, _, rfl, _⟩ := hx
      refine ⟨h.pools, fun q hq => ?_⟩
      simp only [UMap.get_insert] at hq
      split at hq
      · rename_i he; subst he; exact h1
      · exact h.factories q hq
    | removeFactory f =>
      rw [hcall] at hx; obtain ⟨_, _, rfl, _⟩ := hx
      refine ⟨h.pools, fun q hq => ?_⟩
      simp only [UMap.get_remove] at hq
      split at hq
      · cases hq
      · exact h.factories q hq
  · rw [hs]; exact h

theorem started_eq {valid : AccountId → Bool} {f : AccountId} {s : State} (h : Started valid f s) :
    s = ⟨f, .empty, .empty⟩ := by
  obtain ⟨who, h⟩ := h
  simp only [new, bind_ok, pure_ok] at h
  obtain ⟨_, _, _, _, _, _, rfl⟩ := h
  rfl

theorem started_winv {valid : AccountId → Bool} {f : AccountId} {s : State} (h : Started valid f s) :
    WInv valid s := by
  rw [started_eq h]
  exact ⟨fun _ h => by simp at h, fun _ h => by simp at h⟩

theorem run_winv {valid : AccountId → Bool} {s : State} (h : WInv valid s) (evs : List Ev) :
    WInv valid (run valid s evs) := by
  unfold run
  induction evs generalizing s with
  | nil => exact h
  | cons ev t ih => exact ih (winv_step h ev)

theorem step_foundation (valid : AccountId → Bool) (s : State) (ev : Ev) :
    (step valid s ev).foundation = s.foundation := by
  rcases step_cases valid s ev with ⟨b, hc⟩ | ⟨_, hs⟩
  · generalize step valid s ev = s' at hc ⊢
    obtain ⟨_, hx⟩ := exec_ok.mp hc
    cases hcall : ev.call <;> rw [hcall] at hx
    · obtain ⟨_, _, rfl, _⟩ := hx; rfl
    · obtain ⟨_, _, rfl, _⟩ := hx; rfl
    · obtain ⟨_, _, rfl, _⟩ := hx; rfl
    · obtain ⟨_, _, rfl, _⟩ := hx; rfl
  · rw [hs]

theorem run_foundation (valid : AccountId → Bool) (s : State) (evs : List Ev) :
    (run valid s evs).foundation = s.foundation := by
  unfold run
  induction evs generalizing s with
  | nil => rfl
  | cons ev t ih => rw [List.foldl_cons, ih, step_foundation]

/-! ## C39 -/

/-- What the two lists should be after a call: the specification. -/
def specPools (c : Call) (pools : AccountId → Prop) : AccountId → Prop :=
  match c with
  | .addPool p => fun q => q = p ∨ pools q
  | .removePool p => fun q => q ≠ p ∧ pools q
  | _ => pools

/-- See `specPools`. -/
def specFactories (c : Call) (factories : AccountId → Prop) : AccountId → Prop :=
  match c with
  | .addFactory f => fun q => q = f ∨ factories q
  | .removeFactory f => fun q => q ≠ f ∧ factories q
  | _ => factories

/-- Whether the call changes one of the sets. -/
def specReturns (c : Call) (pools factories : AccountId → Prop) : Prop :=
  match c with
  | .addPool p => ¬ pools p
  | .removePool p => pools p
  | .addFactory f => ¬ factories f
  | .removeFactory f => factories f

/-- **C39.** The contract refines a pair of sets: a successful call has exactly the specified effect on
both, and returns whether it changed something. -/
theorem C39_refines_two_sets {valid : AccountId → Bool} {s s' : State} {ev : Ev} {b : Bool}
    (hc : Calls valid s ev s' b) :
    (∀ q, PoolIn valid s' q ↔ specPools ev.call (PoolIn valid s) q) ∧
    (∀ q, FactoryIn valid s' q ↔ specFactories ev.call (FactoryIn valid s) q) ∧
    (b = true ↔ specReturns ev.call (PoolIn valid s) (FactoryIn valid s)) := by
  obtain ⟨_, hx⟩ := exec_ok.mp hc
  cases hcall : ev.call with
  | addPool p =>
    rw [hcall] at hx; obtain ⟨h1, _, rfl, rfl⟩ := hx
    refine ⟨fun q => ?_, fun q => by simp [factoryIn_iff, specFactories], ?_⟩
    · simp only [poolIn_iff, specPools, UMap.get_insert]
      by_cases he : p = q
      · subst he; simp [h1]
      · simp [he, Ne.symm he]
    · simp only [specReturns, poolIn_iff, h1, true_and, ← contains_iff]; simp
  | removePool p =>
    rw [hcall] at hx; obtain ⟨h1, _, rfl, rfl⟩ := hx
    refine ⟨fun q => ?_, fun q => by simp [factoryIn_iff, specFactories], ?_⟩
    · simp only [poolIn_iff, specPools, UMap.get_remove]
      by_cases he : p = q
      · subst he; simp
      · simp [he, Ne.symm he]
    · simp only [specReturns, poolIn_iff, h1, true_and, ← contains_iff]
  | addFactory f =>
    rw [hcall] at hx; obtain ⟨h1, _, rfl, rfl⟩ := hx
    refine ⟨fun q => by simp [poolIn_iff, specPools], fun q => ?_, ?_⟩
    · simp only [factoryIn_iff, specFactories, UMap.get_insert]
      by_cases he : f = q
      · subst he; simp [h1]
      · simp [he, Ne.symm he]
    · simp only [specReturns, factoryIn_iff, h1, true_and, ← contains_iff]; simp
  | removeFactory f =>
    rw [hcall] at hx; obtain ⟨h1, _, rfl, rfl⟩ := hx
    refine ⟨fun q => by simp [poolIn_iff, specPools], fun q => ?_, ?_⟩
    · simp only [factoryIn_iff, specFactories, UMap.get_remove]
      by_cases he : f = q
      · subst he; simp
      · simp [he, Ne.symm he]
    · simp only [specReturns, factoryIn_iff, h1, true_and, ← contains_iff]

theorem step_poolIn {valid : AccountId → Bool} {s : State} (p : AccountId) (ev : Ev) :
    PoolIn valid (step valid s ev) p ↔
      Does valid (.addPool p) s ev ∨ (PoolIn valid s p ∧ ¬ Does valid (.removePool p) s ev) := by
  rcases step_cases valid s ev with ⟨b, hc⟩ | ⟨hn, hs⟩
  · rw [(C39_refines_two_sets hc).1 p]
    have hd : ∀ c, Does valid c s ev ↔ ev.call = c := fun c => ⟨fun h => h.1, fun h => ⟨h, _, b, hc⟩⟩
    rw [hd, hd]
    cases ev.call <;> simp [specPools, eq_comm, and_comm]
  · have hd : ∀ c, ¬ Does valid c s ev := fun c h => by obtain ⟨_, s', b, h⟩ := h; exact hn _ _ h
    rw [hs]; simp [hd]

theorem step_factoryIn {valid : AccountId → Bool} {s : State} (f : AccountId)
    (ev : Ev) : FactoryIn valid (step valid s ev) f ↔
      Does valid (.addFactory f) s ev ∨ (FactoryIn valid s f ∧ ¬ Does valid (.removeFactory f) s ev) := by
  rcases step_cases valid s ev with ⟨b, hc⟩ | ⟨hn, hs⟩
  · rw [(C39_refines_two_sets hc).2.1 f]
    have hd : ∀ c, Does valid c s ev ↔ ev.call = c := fun c => ⟨fun h => h.1, fun h => ⟨h, _, b, hc⟩⟩
    rw [hd, hd]
    cases ev.call <;> simp [specFactories, eq_comm, and_comm]
  · have hd : ∀ c, ¬ Does valid c s ev := fun c h => by obtain ⟨_, s', b, h⟩ := h; exact hn _ _ h
    rw [hs]; simp [hd]

/-- **C39.** A pool is whitelisted exactly when it was added by a successful call and not removed by a
successful call since. -/
theorem C39_pool_listed_iff {valid : AccountId → Bool} {fnd : AccountId} {s0 : State}
    (hs : Started valid fnd s0) (evs : List Ev) (p : AccountId) :
    PoolIn valid (run valid s0 evs) p ↔
      Since (step valid) s0 evs (Does valid (.addPool p)) (Does valid (.removePool p)) := by
  refine since_iff (I := WInv valid) (P := fun s => PoolIn valid s p)
    (started_winv hs) (fun s e h => winv_step h e) ?_ (fun s e _ => step_poolIn p e) evs
  rw [started_eq hs]
  simp [poolIn_iff]

/-- **C39.** The same for factories. -/
theorem C39_factory_listed_iff {valid : AccountId → Bool} {fnd : AccountId} {s0 : State}
    (hs : Started valid fnd s0) (evs : List Ev) (f : AccountId) :
    FactoryIn valid (run valid s0 evs) f ↔
      Since (step valid) s0 evs (Does valid (.addFactory f)) (Does valid (.removeFactory f)) := by
  refine since_iff (I := WInv valid) (P := fun s => FactoryIn valid s f)
    (started_winv hs) (fun s e h => winv_step h e) ?_ (fun s e _ => step_factoryIn f e) evs
  rw [started_eq hs]
  simp [factoryIn_iff]

/-- **C39.** The views answer for every valid id, and for valid ids only. -/
theorem C39_views_total {valid : AccountId → Bool} {s : State} {p : AccountId} :
    (valid p = true ↔ ∃ b, isWhitelisted (mkEnv valid "viewer" 0) s p = .ok b) ∧
    (valid p = true ↔ ∃ b, isFactoryWhitelisted (mkEnv valid "viewer" 0) s p = .ok b) := by
  constructor
  · simp only [isWhitelisted, bind_ok, require_ok, pure_ok]; simp [mkEnv]
  · simp only [isFactoryWhitelisted, bind_ok, require_ok, pure_ok]; simp [mkEnv]

/-! ## C40 -/

/-- Who may make a call. -/
def Allowed (valid : AccountId → Bool) (fnd : AccountId) (s : State) (who : AccountId) : Call → Prop
  | .addPool _ => who = fnd ∨ FactoryIn valid s who
  | _ => who = fnd

/-- The id the call is about. -/
def Call.id : Call → AccountId
  | .addPool p => p
  | .removePool p => p
  | .addFactory f => f
  | .removeFactory f => f

/-- **C40.** At any moment a call succeeds exactly when no deposit is attached, the id is valid, and the
caller is the foundation given at initialization or, for `add_staking_pool`, a factory that is
whitelisted at that moment. -/
theorem C40_success_iff {valid : AccountId → Bool} {fnd : AccountId} {s0 : State}
    (hs : Started valid fnd s0) (evs : List Ev) (ev : Ev) :
    (∃ s' b, Calls valid (run valid s0 evs) ev s' b) ↔
      ev.attached = 0 ∧ valid ev.call.id = true ∧
      Allowed valid fnd (run valid s0 evs) ev.who ev.call := by
  have hf : (run valid s0 evs).foundation = fnd := by
    rw [run_foundation, started_eq hs]
  have hi := run_winv (started_winv hs) evs
  have hfac : ∀ x, FactoryIn valid (run valid s0 evs) x ↔
      (run valid s0 evs).factoryWhitelist.contains x = true := by
    intro x
    rw [factoryIn_iff, contains_iff]
    exact ⟨fun h => h.2, fun h => ⟨hi.factories x h, h⟩⟩
  unfold Calls
  simp only [exec_ok, hf]
  cases ev.call with
  | addPool p =>
    simp only [Call.id, Allowed, hfac]
    constructor
    · rintro ⟨s', b, h1, h2, h3, _⟩; exact ⟨h1, h2, h3.symm⟩
    · rintro ⟨h1, h2, h3⟩; exact ⟨_, _, h1, h2, h3.symm, rfl, rfl⟩
  | removePool p =>
    simp only [Call.id, Allowed]
    constructor
    · rintro ⟨s', b, h1, h2, h3, _⟩; exact ⟨h1, h2, h3⟩
    · rintro ⟨h1, h2, h3⟩; exact ⟨_, _, h1, h2, h3, rfl, rfl⟩
  | addFactory f =>
    simp only [Call.id, Allowed]
    constructor
    · rintro ⟨s', b, h1, h2, h3, _⟩; exact ⟨h1, h2, h3⟩
    · rintro ⟨h1, h2, h3⟩; exact ⟨_, _, h1, h2, h3, rfl, rfl⟩
  | removeFactory f =>
    simp only [Call.id, Allowed]
    constructor
    · rintro ⟨s', b, h1, h2, h3, _⟩; exact ⟨h1, h2, h3⟩
    · rintro ⟨h1, h2, h3⟩; exact ⟨_, _, h1, h2, h3, rfl, rfl⟩

/-- **C40.** A whitelisted pool was added by the foundation or by a factory that the foundation had
added and not removed before that call. -/
theorem C40_pool_was_authorized {valid : AccountId → Bool} {fnd : AccountId} {s0 : State}
    (hs : Started valid fnd s0) (evs : List Ev) (p : AccountId)
    (hp : PoolIn valid (run valid s0 evs) p) :
    ∃ l1 who l2, evs = l1 ++ ⟨who, 0, .addPool p⟩ :: l2 ∧
      (who = fnd ∨ Since (step valid) s0 l1
        (fun s ev => ev = ⟨fnd, 0, .addFactory who⟩ ∧ Does valid (.addFactory who) s ev)
        (fun s ev => ev = ⟨fnd, 0, .removeFactory who⟩ ∧ Does valid (.removeFactory who) s ev)) := by
  obtain ⟨l1, ev, l2, rfl, ⟨hcall, s', b, hc⟩, _⟩ := (C39_pool_listed_iff hs evs p).mp hp
  obtain ⟨h1, _, h3⟩ := (C40_success_iff hs l1 ev).mp ⟨s', b, hc⟩
  obtain ⟨who, att, c⟩ := ev
  simp only at h1 hcall h3
  subst hcall h1
  refine ⟨l1, who, l2, rfl, ?_⟩
  rcases h3 with h3 | h3
  · exact .inl h3
  · right
    obtain ⟨m1, e, m2, rfl, he, hk⟩ := (C39_factory_listed_iff hs l1 who).mp h3
    refine ⟨m1, e, m2, rfl, ⟨?_, he⟩, fun k1 y k2 hk2 h => hk k1 y k2 hk2 h.2⟩
    obtain ⟨hec, s2, b2, hc2⟩ := he
    obtain ⟨g1, _, g3⟩ := (C40_success_iff hs m1 e).mp ⟨s2, b2, hc2⟩
    obtain ⟨ew, ea, ec⟩ := e
    simp only at hec g1 g3
    subst hec g1
    simp only [Allowed] at g3
    rw [g3]

/-- **C40.** After a factory (other than the foundation) is removed, it can add nothing until the
foundation adds it again. -/
theorem C40_removed_factory_is_powerless {valid : AccountId → Bool} {fnd : AccountId} {s0 : State}
    (hs : Started valid fnd s0) {l1 l2 : List Ev} {f : AccountId} (hf : f ≠ fnd) {s' : State} {b : Bool}
    (hc : Calls valid (run valid s0 l1) ⟨fnd, 0, .removeFactory f⟩ s' b)
    (hno : ∀ m1 e m2, l2 = m1 ++ e :: m2 → e ≠ ⟨fnd, 0, .addFactory f⟩) (att : Nat) (c : Call) :
    ¬ ∃ s' b, Calls valid (run valid s0 (l1 ++ ⟨fnd, 0, .removeFactory f⟩ :: l2)) ⟨f, att, c⟩ s' b := by
  have hnot : ¬ FactoryIn valid (run valid s0 (l1 ++ ⟨fnd, 0, .removeFactory f⟩ :: l2)) f := by
    induction l2 using List.reverseRecOn with
    | nil =>
      have hrun : run valid s0 (l1 ++ [⟨fnd, 0, .removeFactory f⟩]) =
          step valid (run valid s0 l1) ⟨fnd, 0, .removeFactory f⟩ := by simp [run]
      rw [hrun, step_factoryIn]
      rintro (⟨h, _⟩ | ⟨_, h⟩)
      · cases h
      · exact h ⟨rfl, s', b, hc⟩
    | append_singleton l e ih =>
      have hrun : run valid s0 (l1 ++ ⟨fnd, 0, .removeFactory f⟩ :: (l ++ [e])) =
          step valid (run valid s0 (l1 ++ ⟨fnd, 0, .removeFactory f⟩ :: l)) e := by
        rw [← List.cons_append, ← List.append_assoc]; unfold run; rw [List.foldl_append]; rfl
      rw [hrun, step_factoryIn]
      rintro (⟨h, s2, b2, h2⟩ | ⟨h, _⟩)
      · obtain ⟨g1, _, g3⟩ := (C40_success_iff hs _ e).mp ⟨s2, b2, h2⟩
        obtain ⟨ew, ea, ec⟩ := e
        simp only at h g1 g3
        subst h g1
        simp only [Allowed] at g3
        exact hno l _ [] rfl (by rw [g3])
      · exact ih (fun m1 y m2 hm => hno m1 y (m2 ++ [e]) (by rw [hm]; simp)) h
  rw [C40_success_iff hs]
  rintro ⟨_, _, h3⟩
  cases c with
  | addPool p => exact h3.elim hf hnot
  | removePool p => exact hf h3
  | addFactory g => exact hf h3
  | removeFactory g => exact hf h3

/-! ## A concrete history -/

def demoValid : AccountId → Bool := fun a => a ≠ ""

def demo0 : State := ⟨"foundation", .empty, .empty⟩

theorem demo0_started : Started demoValid "foundation" demo0 := ⟨"x", rfl⟩

/-- The foundation adds a factory, which adds two pools; a third account's attempt fails; the foundation
removes one pool and the factory. -/
def demo1 : List Ev :=
  [⟨"foundation", 0, .addFactory "factory"⟩, ⟨"factory", 0, .addPool "p1"⟩, ⟨"factory", 0, .addPool "p2"⟩,
   ⟨"eve", 0, .addPool "p3"⟩, ⟨"foundation", 0, .removePool "p1"⟩]

example : PoolIn demoValid (run demoValid demo0 demo1) "p2" ∧
    ¬ PoolIn demoValid (run demoValid demo0 demo1) "p1" ∧
    ¬ PoolIn demoValid (run demoValid demo0 demo1) "p3" ∧
    FactoryIn demoValid (run demoValid demo0 demo1) "factory" := by
  simp only [poolIn_iff, factoryIn_iff]; decide +kernel

example : WInv demoValid (run demoValid demo0 demo1) := run_winv (started_winv demo0_started) _

/-- The hypotheses of `C40_removed_factory_is_powerless` are met after `demo1`. -/
example : ∃ s' b, Calls demoValid (run demoValid demo0 demo1) ⟨"foundation", 0, .removeFactory "factory"⟩ s' b :=
  (C40_success_iff demo0_started _ _).mpr ⟨rfl, rfl, rfl⟩

end Verif.Whitelist
