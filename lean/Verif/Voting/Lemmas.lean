import Verif.Voting.World

/-! # Inversion of the voting methods and the invariant -/

namespace Verif.Voting

open Verif

/-- Sum of stakes over a list of accounts. -/
def stakeSum (f : AccountId → Nat) (l : List AccountId) : Nat := (l.map f).sum

theorem recount_ok {f : AccountId → Nat} (l : List AccountId) {t : Nat} {m : UMap AccountId Nat}
    {x : Nat × UMap AccountId Nat} (hnd : l.Nodup) (hdis : ∀ a ∈ l, m.get a = none)
    (ht : t < two128) :
    recount f l t m = .ok x ↔ t + stakeSum f l < two128 ∧ x.1 = t + stakeSum f l ∧
      x.2 = (l.filter (fun a => 0 < f a)).foldl (fun m a => m.insert a (f a)) m := by
  induction l generalizing t m with
  | nil =>
    simp only [recount, pure_ok, stakeSum, List.map_nil, List.sum_nil, Nat.add_zero, List.filter_nil,
      List.foldl_nil]
    constructor
    · rintro rfl; exact ⟨ht, rfl, rfl⟩
    · rintro ⟨_, h1, h2⟩; exact Prod.ext h1.symm h2.symm
  | cons a r ih =>
    obtain ⟨hna, hnr⟩ := List.nodup_cons.mp hnd
    simp only [recount, bind_ok, addU128_ok]
    have hsum : stakeSum f (a :: r) = f a + stakeSum f r := by simp [stakeSum]
    constructor
    · rintro ⟨t', ⟨h1, rfl⟩, h2⟩
      rw [ih hnr ?_ h1] at h2
      · obtain ⟨g1, g2, g3⟩ := h2
        refine ⟨by omega, by omega, ?_⟩
        rw [g3]
        by_cases hp : 0 < f a
        · simp [hp]
        · simp [hp]
      · intro b hb
        have hne : a ≠ b := by rintro rfl; exact hna hb
        split
        · rw [UMap.get_insert_ne hne]; exact hdis b (by simp [hb])
        · exact hdis b (by simp [hb])
    · rintro ⟨h1, h2, h3⟩
      refine ⟨t + f a, ⟨by omega, rfl⟩, ?_⟩
      rw [ih hnr ?_ (by omega)]
      · refine ⟨by omega, by omega, ?_⟩
        rw [h3]
        by_cases hp : 0 < f a
        · simp [hp]
        · simp [hp]
      · intro b hb
        have hne : a ≠ b := by rintro rfl; exact hna hb
        split
        · rw [UMap.get_insert_ne hne]; exact hdis b (by simp [hb])
        · exact hdis b (by simp [hb])

/-- The votes after a recount. -/
def recounted (f : AccountId → Nat) (l : List AccountId) : UMap AccountId Nat :=
  (l.filter (fun a => 0 < f a)).foldl (fun m a => m.insert a (f a)) .empty

theorem foldl_insert_get (f : AccountId → Nat) (l : List AccountId) (m : UMap AccountId Nat)
    (a : AccountId) :
    (l.foldl (fun m a => m.insert a (f a)) m).get a = if a ∈ l then some (f a) else m.get a := by
  induction l generalizing m with
  | nil => simp
  | cons b t ih =>
    simp only [List.foldl_cons, ih, List.mem_cons]
    by_cases h1 : a ∈ t
    · simp [h1]
    · simp only [h1, if_false, or_false, UMap.get_insert]
      by_cases h2 : b = a
      · subst h2; simp
      · simp [h2, Ne.symm h2]

theorem recounted_get (f : AccountId → Nat) (l : List AccountId) (a : AccountId) :
    (recounted f l).get a = if a ∈ l ∧ 0 < f a then some (f a) else none := by
  unfold recounted
  rw [foldl_insert_get]
  simp

theorem foldl_insert_sum (f : AccountId → Nat) (l : List AccountId) (m : UMap AccountId Nat)
    (hnd : l.Nodup) (hdis : ∀ a ∈ l, m.get a = none) :
    (l.foldl (fun m a => m.insert a (f a)) m).sum (fun _ v => v) =
      m.sum (fun _ v => v) + stakeSum f l := by
  induction l generalizing m with
  | nil => simp [stakeSum]
  | cons b t ih =>
    obtain ⟨hnb, hnt⟩ := List.nodup_cons.mp hnd
    rw [List.foldl_cons, ih _ hnt]
    · have h1 := UMap.sum_insert m b (f b) (fun _ v => v)
      have h2 : m.part (fun _ v => v) b = 0 := by
        unfold UMap.part; rw [hdis b (by simp)]
      have h3 : stakeSum f (b :: t) = f b + stakeSum f t := by simp [stakeSum]
      omega
    · intro a ha
      have hne : b ≠ a := by rintro rfl; exact hnb ha
      rw [UMap.get_insert_ne hne]; exact hdis a (by simp [ha])

theorem stakeSum_filter (f : AccountId → Nat) (l : List AccountId) :
    stakeSum f (l.filter (fun a => 0 < f a)) = stakeSum f l := by
  induction l with
  | nil => rfl
  | cons a t ih =>
    have h3 : stakeSum f (a :: t) = f a + stakeSum f t := by simp [stakeSum]
    by_cases h : 0 < f a
    · rw [List.filter_cons_of_pos (by simpa using h), h3, ← ih]; simp [stakeSum]
    · rw [List.filter_cons_of_neg (by simpa using h), h3, ih]; omega

theorem recounted_sum (f : AccountId → Nat) (l : List AccountId) (hnd : l.Nodup) :
    (recounted f l).sum (fun _ v => v) = stakeSum f l := by
  unfold recounted
  rw [foldl_insert_sum _ _ _ (hnd.filter _) (fun _ _ => rfl), stakeSum_filter]
  simp

/-- Distinct accounts together have at most the total stake. -/
theorem stakeSum_le (u : UMap AccountId Nat) (l : List AccountId) (hnd : l.Nodup) :
    stakeSum (fun a => (u.get a).getD 0) l ≤ u.sum (fun _ v => v) := by
  induction l generalizing u with
  | nil => simp [stakeSum]
  | cons a t ih =>
    obtain ⟨hna, hnt⟩ := List.nodup_cons.mp hnd
    have h1 := ih (u.remove a) hnt
    have h2 := UMap.sum_remove u a (fun _ v => v)
    have h3 : stakeSum (fun b => ((u.remove a).get b).getD 0) t =
        stakeSum (fun b => (u.get b).getD 0) t := by
      unfold stakeSum
      congr 1
      apply List.map_congr_left
      intro b hb
      have hne : a ≠ b := by rintro rfl; exact hna hb
      rw [UMap.get_remove_ne hne]
    have h4 : stakeSum (fun b => (u.get b).getD 0) (a :: t) =
        (u.get a).getD 0 + stakeSum (fun b => (u.get b).getD 0) t := by simp [stakeSum]
    have h5 : u.part (fun _ v => v) a = (u.get a).getD 0 := by
      unfold UMap.part; cases u.get a <;> rfl
    omega

/-! ## Inversion -/

/-- The threshold in whole numbers. -/
theorem threshold_iff (v t : Nat) : v > 2 * t / 3 ↔ 2 * t < 3 * v := by omega

theorem checkResult_ok {e : Env} {s s' : State} :
    checkResult e s = .ok s' ↔ s.result = none ∧ 2 * validatorTotalStake e < two128 ∧
      s' = (if 2 * validatorTotalStake e < 3 * s.totalVotedStake then
        { s with result := some e.now } else s) := by
  simp only [checkResult, bind_ok, require_ok, mulU128_ok]
  constructor
  · rintro ⟨_, h1, d, ⟨h2, rfl⟩, h3⟩
    refine ⟨h1, h2, ?_⟩
    by_cases h : s.totalVotedStake > 2 * validatorTotalStake e / 3
    · rw [if_pos h, pure_ok] at h3
      rw [if_pos ((threshold_iff _ _).mp h), h3]
    · rw [if_neg h, pure_ok] at h3
      rw [if_neg (fun h' => h ((threshold_iff _ _).mpr h')), h3]
  · rintro ⟨h1, h2, h3⟩
    refine ⟨(), h1, _, ⟨h2, rfl⟩, ?_⟩
    by_cases h : s.totalVotedStake > 2 * validatorTotalStake e / 3
    · rw [if_pos ((threshold_iff _ _).mp h)] at h3
      rw [if_pos h, pure_ok, h3]
    · rw [if_neg (fun h' => h ((threshold_iff _ _).mpr h'))] at h3
      rw [if_neg h, pure_ok, h3]

/-- The yes stake after a recount. -/
def yesNow (e : Env) (s : State) : Nat := stakeSum (validatorStake e) s.votes.keys

/-- The state after a recount. -/
def recountState (e : Env) (s : State) : State :=
  { votes := recounted (validatorStake e) s.votes.keys, totalVotedStake := yesNow e s,
    result := if 2 * validatorTotalStake e < 3 * yesNow e s then some e.now else none,
    lastEpochHeight := e.epochHeight }

theorem yesNow_le (e : Env) (s : State) : yesNow e s ≤ validatorTotalStake e :=
  stakeSum_le e.stakes _ (UMap.keys_nodup _)

theorem ping_ok {e : Env} {s s' : State} :
    ping e s = .ok s' ↔ s.result = none ∧
      ((e.epochHeight = s.lastEpochHeight ∧ s' = s) ∨
       (e.epochHeight ≠ s.lastEpochHeight ∧ 2 * validatorTotalStake e < two128 ∧
        s' = recountState e s)) := by
  simp only [ping, bind_ok, require_ok]
  constructor
  · rintro ⟨_, h1, h2⟩
    refine ⟨h1, ?_⟩
    by_cases hE : e.epochHeight = s.lastEpochHeight
    · rw [if_neg (by simpa using hE), pure_ok] at h2
      exact .inl ⟨hE, h2.symm⟩
    · rw [if_pos hE] at h2
      simp only [bind_ok, checkResult_ok, pure_ok] at h2
      obtain ⟨x, h3, s1, ⟨h4, h5, h6⟩, rfl⟩ := h2
      rw [recount_ok _ (UMap.keys_nodup _) (fun _ _ => rfl) (by decide)] at h3
      obtain ⟨g1, g2, g3⟩ := h3
      refine .inr ⟨hE, h5, ?_⟩
      rw [h6]
      simp only [Nat.zero_add] at g2
      unfold recountState
      rw [show yesNow e s = x.1 from g2.symm, show recounted (validatorStake e) s.votes.keys = x.2 from g3.symm]
      split
      · rfl
      · simp only [h1]
  · rintro ⟨h1, h2⟩
    refine ⟨(), h1, ?_⟩
    rcases h2 with ⟨hE, rfl⟩ | ⟨hE, h3, rfl⟩
    · rw [if_neg (by simpa using hE)]; rfl
    · rw [if_pos hE]
      simp only [bind_ok, checkResult_ok, pure_ok]
      have hle := yesNow_le e s
      refine ⟨(yesNow e s, recounted (validatorStake e) s.votes.keys), ?_, _, ⟨h1, h3, rfl⟩, ?_⟩
      · rw [recount_ok _ (UMap.keys_nodup _) (fun _ _ => rfl) (by decide)]
        refine ⟨?_, by simp [yesNow], rfl⟩
        have : stakeSum (validatorStake e) s.votes.keys = yesNow e s := rfl
        omega
      · unfold recountState
        simp only
        split
        · rfl
        · simp only [h1]

/-- The state after a yes vote by `a` in an open poll. -/
def cast (e : Env) (s : State) : State :=
  let st := validatorStake e e.predecessor
  let total := s.totalVotedStake + st - (s.votes.get e.predecessor).getD 0
  { s with
    votes := (s.votes.remove e.predecessor).insert e.predecessor st
    totalVotedStake := total
    result := if 2 * validatorTotalStake e < 3 * total then some e.now else none }

/-- The state after the withdrawal of a vote in an open poll. -/
def withdraw (e : Env) (s : State) : State :=
  { s with
    votes := s.votes.remove e.predecessor
    totalVotedStake := s.totalVotedStake - (s.votes.get e.predecessor).getD 0 }

/-- How `vote` succeeds. -/
inductive VoteRel (e : Env) (s : State) : Bool → State → Prop
  | ended (b : Bool) (s1 : State) : ping e s = .ok s1 → s1.result ≠ none → VoteRel e s b s1
  | cast (s1 : State) : ping e s = .ok s1 → s1.result = none → 0 < validatorStake e e.predecessor →
      (s1.votes.get e.predecessor).getD 0 ≤ s1.totalVotedStake →
      s1.totalVotedStake + validatorStake e e.predecessor < two128 →
      2 * validatorTotalStake e < two128 → VoteRel e s true (cast e s1)
  | withdraw (s1 : State) : ping e s = .ok s1 → s1.result = none →
      (s1.votes.get e.predecessor).getD 0 ≤ s1.totalVotedStake →
      s1.totalVotedStake < two128 → VoteRel e s false (withdraw e s1)

theorem vote_ok {e : Env} {s s' : State} {b : Bool} : vote e s b = .ok s' ↔ VoteRel e s b s' := by
  simp only [vote, bind_ok]
  constructor
  · rintro ⟨s1, h1, h2⟩
    by_cases hr : s1.result = none
    · rw [if_neg (by simp [hr])] at h2
      cases b with
      | true =>
        simp only [if_true, bind_ok, require_ok, pure_ok, addU128_ok, subU_ok] at h2
        obtain ⟨_, h3, st, rfl, _, h4, t, ⟨h5, rfl⟩, tot, ⟨h6, rfl⟩, h7⟩ := h2
        rw [if_pos h3] at h7
        obtain ⟨_, h8, h9⟩ := checkResult_ok.mp h7
        have : s' = cast e s1 := by
          rw [h9]; unfold cast; simp only
          split
          · rfl
          · simp only [hr]
        rw [this]
        exact .cast s1 h1 hr h3 h4 h5 h8
      | false =>
        simp only [Bool.false_eq_true, if_false, bind_ok, require_ok, pure_ok, addU128_ok,
          subU_ok] at h2
        obtain ⟨st, rfl, _, h4, t, ⟨h5, rfl⟩, tot, ⟨h6, rfl⟩, h7⟩ := h2
        rw [if_neg (by omega), pure_ok] at h7
        rw [← h7]
        exact .withdraw s1 h1 hr h4 (by omega)
    · rw [if_pos (by cases hx : s1.result with
        | none => exact absurd hx hr
        | some _ => rfl), pure_ok] at h2
      rw [← h2]; exact .ended b s1 h1 hr
  · intro h
    cases h with
    | ended b s1 h1 hr =>
      refine ⟨_, h1, ?_⟩
      rw [if_pos (by cases hx : s'.result with
        | none => exact absurd hx hr
        | some _ => rfl)]; rfl
    | cast s1 h1 hr h3 h4 h5 h8 =>
      refine ⟨_, h1, ?_⟩
      rw [if_neg (by simp [hr])]
      simp only [if_true, bind_ok, require_ok, pure_ok, addU128_ok, subU_ok]
      refine ⟨(), h3, _, rfl, (), h4, _, ⟨h5, rfl⟩, _, ⟨by omega, rfl⟩, ?_⟩
      rw [if_pos h3, checkResult_ok]
      refine ⟨hr, h8, ?_⟩
      unfold cast; simp only
      split
      · rfl
      · simp only [hr]
    | withdraw s1 h1 hr h4 h5 =>
      refine ⟨_, h1, ?_⟩
      rw [if_neg (by simp [hr])]
      simp only [Bool.false_eq_true, if_false, bind_ok, require_ok, pure_ok, addU128_ok, subU_ok]
      refine ⟨_, rfl, (), h4, _, ⟨by omega, rfl⟩, _, ⟨by omega, rfl⟩, ?_⟩
      rw [if_neg (by omega)]; rfl

theorem notPayable_ok {e : Env} {u : Unit} : notPayable e = .ok u ↔ e.attachedDeposit = 0 := by
  simp [notPayable]

theorem exec_ok {e : Env} {s s' : State} {c : Call} : exec e s c = .ok s' ↔
    e.attachedDeposit = 0 ∧ ((c = .ping ∧ ping e s = .ok s') ∨ (∃ b, c = .vote b ∧ VoteRel e s b s')) := by
  cases c with
  | ping =>
    simp only [exec, bind_ok, notPayable_ok]
    constructor
    · rintro ⟨_, h1, h2⟩; exact ⟨h1, .inl ⟨trivial, h2⟩⟩
    · rintro ⟨h1, ⟨_, h2⟩ | ⟨b, h, _⟩⟩
      · exact ⟨(), h1, h2⟩
      · cases h
  | vote b =>
    simp only [exec, bind_ok, notPayable_ok, vote_ok]
    constructor
    · rintro ⟨_, h1, h2⟩; exact ⟨h1, .inr ⟨b, rfl, h2⟩⟩
    · rintro ⟨h1, ⟨h, _⟩ | ⟨b', h, h2⟩⟩
      · cases h
      · cases h; exact ⟨(), h1, h2⟩

/-! ## The invariant -/

/-- Consistency of the state. -/
structure VInv (cfg : Cfg) (s : State) : Prop where
  total : s.totalVotedStake = s.votes.sum (fun _ v => v)
  stake : ∀ a v, s.votes.get a = some v → v = stakeAt cfg s.lastEpochHeight a ∧ 0 < v
  result : s.result = none → 3 * s.totalVotedStake ≤ 2 * totalAt cfg s.lastEpochHeight

theorem validatorStake_eq (cfg : Cfg) (w : World) (who : AccountId) (att : Nat) (a : AccountId) :
    validatorStake (mkEnv cfg w who att) a = stakeAt cfg w.epoch a := rfl

theorem validatorTotalStake_eq (cfg : Cfg) (w : World) (who : AccountId) (att : Nat) :
    validatorTotalStake (mkEnv cfg w who att) = totalAt cfg w.epoch := rfl

theorem vinv_ping {cfg : Cfg} {w : World} {who : AccountId} {att : Nat} {s s' : State}
    (h : VInv cfg s) (hp : ping (mkEnv cfg w who att) s = .ok s') :
    VInv cfg s' ∧ s'.lastEpochHeight = w.epoch := by
  obtain ⟨h1, ⟨h2, rfl⟩ | ⟨h2, h3, rfl⟩⟩ := ping_ok.mp hp
  · exact ⟨h, h2.symm⟩
  · refine ⟨⟨?_, ?_, ?_⟩, rfl⟩
    · show yesNow _ _ = (recounted _ _).sum _
      rw [recounted_sum _ _ (UMap.keys_nodup _)]; rfl
    · intro a v hv
      simp only [recountState, recounted_get] at hv
      split at hv
      · rename_i hc; cases hv; exact ⟨rfl, hc.2⟩
      · cases hv
    · intro hr
      simp only [recountState] at hr ⊢
      by_contra hlt
      rw [if_pos (by
        rw [validatorTotalStake_eq]
        have : (mkEnv cfg w who att).epochHeight = w.epoch := rfl
        rw [this] at hlt; omega)] at hr
      cases hr

theorem vinv_vote {cfg : Cfg} {w : World} {who : AccountId} {att : Nat} {s s' : State} {b : Bool}
    (h : VInv cfg s) (hv : VoteRel (mkEnv cfg w who att) s b s') :
    VInv cfg s' ∧ s'.lastEpochHeight = w.epoch := by
  cases hv with
  | ended b s1 h1 h2 => exact vinv_ping h h1
  | cast s1 h1 h2 h3 h4 h5 h6 =>
    obtain ⟨g, gl⟩ := vinv_ping h h1
    refine ⟨⟨?_, ?_, ?_⟩, gl⟩
    · simp only [cast, mkEnv]
      have e1 := UMap.sum_insert (s1.votes.remove who) who (validatorStake (mkEnv cfg w who att) who)
        (fun _ v => v)
      have e2 := UMap.sum_remove s1.votes who (fun _ v => v)
      have e3 : (s1.votes.remove who).part (fun _ v => v) who = 0 := by
        unfold UMap.part; rw [UMap.get_remove_self]
      have e4 : s1.votes.part (fun _ v => v) who = (s1.votes.get who).getD 0 := by
        unfold UMap.part; cases s1.votes.get who <;> rfl
      have e5 := g.total
      simp only [mkEnv] at e1 h4
      omega
    · intro a v hv
      simp only [cast, mkEnv, UMap.get_insert, UMap.get_remove] at hv
      rw [show (cast (mkEnv cfg w who att) s1).lastEpochHeight = w.epoch from gl]
      split at hv
      · rename_i heq; cases hv; subst heq; exact ⟨rfl, h3⟩
      · have := g.stake a v hv; rw [gl] at this; exact this
    · intro hr
      rw [show (cast (mkEnv cfg w who att) s1).lastEpochHeight = w.epoch from gl]
      by_contra hlt
      simp only [cast] at hr hlt
      rw [if_pos (by rw [validatorTotalStake_eq]; omega)] at hr
      cases hr
  | withdraw s1 h1 h2 h3 h4 =>
    obtain ⟨g, gl⟩ := vinv_ping h h1
    refine ⟨⟨?_, ?_, ?_⟩, gl⟩
    · simp only [withdraw, mkEnv]
      have e2 := UMap.sum_remove s1.votes who (fun _ v => v)
      have e4 : s1.votes.part (fun _ v => v) who = (s1.votes.get who).getD 0 := by
        unfold UMap.part; cases s1.votes.get who <;> rfl
      have e5 := g.total
      omega
    · intro a v hv
      simp only [withdraw, mkEnv, UMap.get_remove] at hv
      split at hv
      · cases hv
      · exact g.stake a v hv
    · intro hr
      have := g.result hr
      simp only [withdraw]
      omega

theorem vinv_exec {cfg : Cfg} {w : World} {who : AccountId} {att : Nat} {s s' : State} {c : Call}
    (h : VInv cfg s) (hx : exec (mkEnv cfg w who att) s c = .ok s') :
    VInv cfg s' ∧ s'.lastEpochHeight = w.epoch := by
  obtain ⟨_, ⟨_, h2⟩ | ⟨b, _, h2⟩⟩ := exec_ok.mp hx
  · exact vinv_ping h h2
  · exact vinv_vote h h2

theorem step_call {cfg : Cfg} {w : World} {who : AccountId} {att : Nat} {c : Call} :
    (∃ s, exec (mkEnv cfg w who att) w.c c = .ok s ∧ step cfg w (.call who att c) = { w with c := s }) ∨
    ((∀ s, exec (mkEnv cfg w who att) w.c c ≠ .ok s) ∧ step cfg w (.call who att c) = w) := by
  simp only [step]
  cases hx : exec (mkEnv cfg w who att) w.c c with
  | ok s => exact .inl ⟨s, rfl, rfl⟩
  | error m => exact .inr ⟨fun s h => (by cases h), rfl⟩

theorem vinv_step {cfg : Cfg} {w : World} (h : VInv cfg w.c) (ev : Ev) : VInv cfg (step cfg w ev).c := by
  cases ev with
  | call who att c =>
    rcases step_call (cfg := cfg) (w := w) (who := who) (att := att) (c := c) with ⟨s, h1, h2⟩ | ⟨_, h2⟩
    · rw [h2]; exact (vinv_exec h h1).1
    · rw [h2]; exact h
  | tick dt => exact h
  | epochs k => exact h

theorem vinv_run {cfg : Cfg} {w : World} (h : VInv cfg w.c) (evs : List Ev) :
    VInv cfg (run cfg w evs).c := by
  unfold run
  induction evs generalizing w with
  | nil => exact h
  | cons ev t ih => exact ih (vinv_step h ev)

theorem started_c {w0 : World} (h : Started w0) : w0.c = ⟨.empty, 0, none, 0⟩ := by
  obtain ⟨e, h1, _⟩ := h
  simp only [new, bind_ok, require_ok, pure_ok] at h1
  obtain ⟨_, _, _, _, h⟩ := h1
  exact h.symm

theorem started_vinv {cfg : Cfg} {w0 : World} (h : Started w0) : VInv cfg w0.c := by
  rw [started_c h]
  exact ⟨rfl, fun a v h => by simp at h, fun _ => Nat.zero_le _⟩

theorem reachable_vinv {cfg : Cfg} {w : World} (h : Reachable cfg w) : VInv cfg w.c := by
  obtain ⟨w0, evs, hs, rfl⟩ := h
  exact vinv_run (started_vinv hs) evs

end Verif.Voting
