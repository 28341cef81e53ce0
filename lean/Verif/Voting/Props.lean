import Verif.Voting.Lemmas

/-!
# Voting: property theorems (C35, C36, C37, C38, C65)
-/

namespace Verif.Voting

open Verif

/-! ## Vocabulary -/

/-- The stake, in epoch `ep`, of the accounts `get_votes` reports. -/
def yesStake (cfg : Cfg) (ep : Nat) (s : State) : Nat :=
  ((getVotes s).map (fun p => stakeAt cfg ep p.1)).sum

/-- `a` is reported by `get_votes`. -/
def Counted (s : State) (a : AccountId) : Prop := a ∈ (getVotes s).map Prod.fst

/-- The call succeeds and leaves the contract in state `s'`. -/
def Calls (cfg : Cfg) (w : World) (who : AccountId) (att : Nat) (c : Call) (s' : State) : Prop :=
  exec (mkEnv cfg w who att) w.c c = .ok s'

/-- The poll is open, also after its recount for the current epoch. -/
def Open (cfg : Cfg) (w : World) : Prop :=
  ∃ s, Calls cfg w "anyone" 0 .ping s ∧ getResult s = none

/-- `a` casts a vote: a successful `vote(true)` in an open poll. -/
def Casts (cfg : Cfg) (a : AccountId) (w : World) (ev : Ev) : Prop :=
  ev = .call a 0 (.vote true) ∧ Open cfg w ∧ ∃ s, Calls cfg w a 0 (.vote true) s

/-- `a` withdraws its vote, or a call succeeds in an epoch in which `a` has no stake. -/
def Loses (cfg : Cfg) (a : AccountId) (w : World) (ev : Ev) : Prop :=
  (ev = .call a 0 (.vote false) ∧ Open cfg w ∧ ∃ s, Calls cfg w a 0 (.vote false) s) ∨
  (stakeAt cfg w.epoch a = 0 ∧ ∃ who att c s, ev = .call who att c ∧ Calls cfg w who att c s)

/-! ## Helper lemmas -/

theorem counted_iff {s : State} {a : AccountId} : Counted s a ↔ ∃ v, s.votes.get a = some v := by
  unfold Counted getVotes
  constructor
  · intro h
    have : a ∈ s.votes.keys := h
    cases hg : s.votes.get a with
    | none => exact absurd this (UMap.get_eq_none.mp hg)
    | some v => exact ⟨v, rfl⟩
  · rintro ⟨v, hv⟩
    exact List.mem_map.mpr ⟨_, UMap.get_eq_some.mp hv, rfl⟩

theorem yesStake_eq {cfg : Cfg} {s : State} (h : VInv cfg s) :
    yesStake cfg s.lastEpochHeight s = s.totalVotedStake := by
  rw [h.total]
  unfold yesStake getVotes UMap.sum
  congr 1
  apply List.map_congr_left
  rintro ⟨a, v⟩ hp
  exact ((h.stake a v (UMap.get_eq_some.mpr hp)).1).symm

theorem yesStake_le (cfg : Cfg) (ep : Nat) (s : State) : yesStake cfg ep s ≤ totalAt cfg ep := by
  have h := stakeSum_le (cfg.stakes ep) s.votes.keys (UMap.keys_nodup _)
  have h1 : stakeSum (fun a => ((cfg.stakes ep).get a).getD 0) s.votes.keys = yesStake cfg ep s := by
    unfold stakeSum yesStake getVotes UMap.keys
    rw [List.map_map]; rfl
  rw [h1] at h
  exact h

theorem yesNow_eq (cfg : Cfg) (w : World) (who : AccountId) (att : Nat) (s : State) :
    yesNow (mkEnv cfg w who att) s = yesStake cfg w.epoch s := by
  unfold yesNow stakeSum yesStake getVotes UMap.keys
  rw [List.map_map]; rfl

theorem result_after {cfg : Cfg} {w : World} {who : AccountId} {att : Nat} {c : Call} {s' : State}
    (h : VInv cfg w.c) (hx : exec (mkEnv cfg w who att) w.c c = .ok s') :
    s'.result = if 2 * totalAt cfg w.epoch < 3 * s'.totalVotedStake then some w.now else none := by
  have hping : ∀ s1, ping (mkEnv cfg w who att) w.c = .ok s1 →
      s1.result = if 2 * totalAt cfg w.epoch < 3 * s1.totalVotedStake then some w.now else none := by
    intro s1 h1
    obtain ⟨h2, ⟨h3, rfl⟩ | ⟨_, _, rfl⟩⟩ := ping_ok.mp h1
    · have := h.result h2
      have h3 : w.epoch = w.c.lastEpochHeight := h3
      rw [if_neg (by rw [h3]; omega), h2]
    · rfl
  obtain ⟨_, ⟨_, h2⟩ | ⟨b, _, h2⟩⟩ := exec_ok.mp hx
  · exact hping _ h2
  · cases h2 with
    | ended b s1 h1 hr => exact hping _ h1
    | cast s1 h1 hr h3 h4 h5 h6 => rfl
    | withdraw s1 h1 hr h3 h4 =>
      have e := hping _ h1
      rw [hr] at e
      have : ¬ 2 * totalAt cfg w.epoch < 3 * s1.totalVotedStake := by
        intro hlt; rw [if_pos hlt] at e; cases e
      simp only [withdraw, hr]
      rw [if_neg (by omega)]

theorem open_iff {cfg : Cfg} {w : World} (who : AccountId) (att : Nat) :
    Open cfg w ↔ ∃ s, ping (mkEnv cfg w who att) w.c = .ok s ∧ s.result = none := by
  have key : ∀ who' att', (∃ s, ping (mkEnv cfg w who' att') w.c = .ok s ∧ s.result = none) →
      ∃ s, ping (mkEnv cfg w who att) w.c = .ok s ∧ s.result = none := by
    rintro who' att' ⟨s, h1, h2⟩
    refine ⟨s, ?_, h2⟩
    rw [ping_ok] at h1 ⊢
    exact h1
  unfold Open Calls
  constructor
  · rintro ⟨s, h1, h2⟩
    obtain ⟨_, ⟨_, h3⟩ | ⟨b, h, _⟩⟩ := exec_ok.mp h1
    · exact key _ _ ⟨s, h3, h2⟩
    · cases h
  · rintro ⟨s, h1, h2⟩
    refine ⟨s, ?_, h2⟩
    rw [exec_ok]
    exact ⟨rfl, .inl ⟨rfl, (by rw [ping_ok] at h1 ⊢; exact h1)⟩⟩

theorem ping_counted {cfg : Cfg} {w : World} {who : AccountId} {att : Nat} {s1 : State}
    (h : VInv cfg w.c) (hp : ping (mkEnv cfg w who att) w.c = .ok s1) (a : AccountId) :
    Counted s1 a ↔ Counted w.c a ∧ stakeAt cfg w.epoch a ≠ 0 := by
  rw [counted_iff, counted_iff]
  obtain ⟨h1, ⟨h2, rfl⟩ | ⟨h2, h3, rfl⟩⟩ := ping_ok.mp hp
  · constructor
    · rintro ⟨v, hv⟩
      have := h.stake a v hv
      have h2 : w.epoch = w.c.lastEpochHeight := h2
      rw [h2]
      exact ⟨⟨v, hv⟩, by omega⟩
    · rintro ⟨hv, _⟩; exact hv
  · simp only [recountState, recounted_get]
    constructor
    · rintro ⟨v, hv⟩
      split at hv
      · rename_i hc
        obtain ⟨hk, hp⟩ := hc
        refine ⟨?_, ?_⟩
        · cases hg : w.c.votes.get a with
          | none => exact absurd hk (UMap.get_eq_none.mp hg)
          | some v => exact ⟨v, rfl⟩
        · have : 0 < stakeAt cfg w.epoch a := hp
          omega
      · cases hv
    · rintro ⟨⟨v, hv⟩, hne⟩
      refine ⟨stakeAt cfg w.epoch a, ?_⟩
      rw [if_pos]
      · rfl
      · refine ⟨List.mem_map.mpr ⟨_, UMap.get_eq_some.mp hv, rfl⟩, ?_⟩
        show 0 < stakeAt cfg w.epoch a
        omega

theorem step_counted {cfg : Cfg} {w : World} (h : VInv cfg w.c) (a : AccountId) (ev : Ev) :
    Counted (step cfg w ev).c a ↔ Casts cfg a w ev ∨ (Counted w.c a ∧ ¬ Loses cfg a w ev) := by
  cases ev with
  | tick dt =>
    have h1 : ¬ Casts cfg a w (.tick dt) := by rintro ⟨h, _⟩; cases h
    have h2 : ¬ Loses cfg a w (.tick dt) := by
      rintro (⟨h, _⟩ | ⟨_, _, _, _, _, h, _⟩) <;> cases h
    simp only [h1, h2, step, not_false_eq_true, and_true, false_or]
  | epochs k =>
    have h1 : ¬ Casts cfg a w (.epochs k) := by rintro ⟨h, _⟩; cases h
    have h2 : ¬ Loses cfg a w (.epochs k) := by
      rintro (⟨h, _⟩ | ⟨_, _, _, _, _, h, _⟩) <;> cases h
    simp only [h1, h2, step, not_false_eq_true, and_true, false_or]
  | call who att c =>
    rcases step_call (cfg := cfg) (w := w) (who := who) (att := att) (c := c) with ⟨s, hx, hs⟩ | ⟨hx, hs⟩
    · rw [hs]
      have hatt : att = 0 := (exec_ok.mp hx).1
      subst hatt
      have hl : Loses cfg a w (.call who 0 c) ↔
          (c = .vote false ∧ who = a ∧ Open cfg w) ∨ stakeAt cfg w.epoch a = 0 := by
        constructor
        · rintro (⟨h1, h2, _⟩ | ⟨h1, _⟩)
          · cases h1; exact .inl ⟨rfl, rfl, h2⟩
          · exact .inr h1
        · rintro (⟨rfl, rfl, h2⟩ | h1)
          · exact .inl ⟨rfl, h2, s, hx⟩
          · exact .inr ⟨h1, who, 0, c, s, rfl, hx⟩
      have hc : Casts cfg a w (.call who 0 c) ↔ c = .vote true ∧ who = a ∧ Open cfg w := by
        constructor
        · rintro ⟨h1, h2, _⟩; cases h1; exact ⟨rfl, rfl, h2⟩
        · rintro ⟨rfl, rfl, h2⟩; exact ⟨rfl, h2, s, hx⟩
      rw [hl, hc]
      obtain ⟨_, ⟨rfl, h2⟩ | ⟨b, rfl, h2⟩⟩ := exec_ok.mp hx
      · rw [ping_counted h h2]
        simp
      · cases h2 with
        | ended b s1 h1 hr =>
          have ho : ¬ Open cfg w := by
            rw [open_iff who 0]
            rintro ⟨s2, g1, g2⟩
            rw [h1] at g1; cases g1; exact hr g2
          rw [ping_counted h h1]
          simp [ho]
        | cast s1 h1 hr h3 h4 h5 h6 =>
          have ho : Open cfg w := (open_iff who 0).mpr ⟨s1, h1, hr⟩
          have hpc := ping_counted h h1 a
          rw [counted_iff] at hpc
          by_cases hw : who = a
          · subst hw
            simp only [counted_iff, cast, mkEnv, UMap.get_insert, if_true, ho, and_self, true_or,
              iff_true]
            exact ⟨_, rfl⟩
          · simp only [counted_iff, cast, mkEnv, UMap.get_insert, UMap.get_remove, hw,
              false_and, and_false, false_or, if_false]
            rw [hpc, counted_iff]
        | withdraw s1 h1 hr h3 h4 =>
          have ho : Open cfg w := (open_iff who 0).mpr ⟨s1, h1, hr⟩
          have hpc := ping_counted h h1 a
          rw [counted_iff] at hpc
          by_cases hw : who = a
          · subst hw
            simp [counted_iff, withdraw, mkEnv, ho]
          · simp only [counted_iff, withdraw, mkEnv, UMap.get_remove, hw,
              false_and, and_false, false_or, if_false]
            rw [hpc, counted_iff]
    · rw [hs]
      have h1 : ¬ Casts cfg a w (.call who att c) := by
        rintro ⟨h1, _, s, h3⟩; cases h1; exact hx s h3
      have h2 : ¬ Loses cfg a w (.call who att c) := by
        rintro (⟨h1, _, s, h3⟩ | ⟨_, _, _, _, s, h1, h3⟩)
        · cases h1; exact hx s h3
        · cases h1; exact hx s h3
      simp [h1, h2]

/-! ## A poll of three validators

In epoch 5 `a`, `b`, `c` have 10 each (total 30); in epoch 6 `b` is gone. -/

/-- A map from a list. -/
def ofList (l : List (AccountId × Nat)) : UMap AccountId Nat :=
  l.foldl (fun m p => m.insert p.1 p.2) .empty

def demoCfg : Cfg where
  stakes ep := if ep ≤ 5 then ofList [("a", 10), ("b", 10), ("c", 10)] else ofList [("a", 10), ("c", 12)]

def demo0 : World := { c := ⟨.empty, 0, none, 0⟩, epoch := 5, now := 100 }

theorem demo0_started : Started demo0 := ⟨mkEnv demoCfg demo0 "x" 0, rfl, rfl, rfl⟩

/-- `a` and `b` vote. -/
def demo1 : List Ev := [.call "a" 0 (.vote true), .tick 3, .call "b" 0 (.vote true)]

theorem demo1_reachable : Reachable demoCfg (run demoCfg demo0 demo1) := ⟨_, _, demo0_started, rfl⟩

/-- `b` loses its stake, `c` votes. -/
def demo2 : List Ev := demo1 ++ [.epochs 1, .call "c" 0 (.vote true)]

/-! ## C35 -/

/-- **C35.** After any successful call the poll is decided, with the current time, exactly when the
accounts reported by `get_votes` hold more than two thirds of the stake of the current epoch; otherwise
it is open. -/
theorem C35_decided_iff_two_thirds {cfg : Cfg} {w : World} (hr : Reachable cfg w)
    {who : AccountId} {att : Nat} {c : Call} {s' : State} (hc : Calls cfg w who att c s') :
    (getResult s' = some w.now ↔ 3 * yesStake cfg w.epoch s' > 2 * totalAt cfg w.epoch) ∧
    (getResult s' = none ↔ 3 * yesStake cfg w.epoch s' ≤ 2 * totalAt cfg w.epoch) := by
  have hv := reachable_vinv hr
  have h1 := result_after hv hc
  obtain ⟨h2, h3⟩ := vinv_exec hv hc
  have h4 := yesStake_eq h2
  rw [h3] at h4
  unfold getResult
  rw [h1, h4]
  by_cases hlt : 2 * totalAt cfg w.epoch < 3 * s'.totalVotedStake
  · rw [if_pos hlt]; simp; omega
  · rw [if_neg hlt]; simp; omega

/-- **C35.** If a poll has a result, there was one successful call that decided it, at the reported
time, and after which the yes votes held more than two thirds of the stake of the epoch of that call. -/
theorem C35_result_has_a_deciding_call {cfg : Cfg} {w0 : World} (hs : Started w0) {evs : List Ev}
    {t : Nat} (hr : getResult (run cfg w0 evs).c = some t) :
    ∃ l1 who c l2 s', evs = l1 ++ .call who 0 c :: l2 ∧
      Calls cfg (run cfg w0 l1) who 0 c s' ∧ getResult (run cfg w0 l1).c = none ∧
      getResult s' = some t ∧ t = (run cfg w0 l1).now ∧
      3 * yesStake cfg (run cfg w0 l1).epoch s' > 2 * totalAt cfg (run cfg w0 l1).epoch := by
  induction evs using List.reverseRecOn with
  | nil =>
    have : (run cfg w0 []).c = w0.c := rfl
    rw [this, started_c hs] at hr
    cases hr
  | append_singleton l ev ih =>
    have hrun : run cfg w0 (l ++ [ev]) = step cfg (run cfg w0 l) ev := by
      simp [run]
    rw [hrun] at hr
    cases ev with
    | tick dt =>
      obtain ⟨l1, who, c, l2, s', rfl, h2⟩ := ih hr
      exact ⟨l1, who, c, l2 ++ [.tick dt], s', by simp, h2⟩
    | epochs k =>
      obtain ⟨l1, who, c, l2, s', rfl, h2⟩ := ih hr
      exact ⟨l1, who, c, l2 ++ [.epochs k], s', by simp, h2⟩
    | call who att c =>
      rcases step_call (cfg := cfg) (w := run cfg w0 l) (who := who) (att := att) (c := c) with
        ⟨s, hx, hst⟩ | ⟨hx, hst⟩
      · rw [hst] at hr
        have hatt : att = 0 := (exec_ok.mp hx).1
        subst hatt
        have hre : Reachable cfg (run cfg w0 l) := ⟨w0, l, hs, rfl⟩
        have hnone : getResult (run cfg w0 l).c = none := by
          obtain ⟨_, ⟨_, h2⟩ | ⟨b, _, h2⟩⟩ := exec_ok.mp hx
          · exact (ping_ok.mp h2).1
          · cases h2 with
            | ended b s1 h1 _ => exact (ping_ok.mp h1).1
            | cast s1 h1 => exact (ping_ok.mp h1).1
            | withdraw s1 h1 => exact (ping_ok.mp h1).1
        have hra := result_after (reachable_vinv hre) hx
        have hr' : s.result = some t := hr
        have ht : t = (run cfg w0 l).now := by
          rw [hr'] at hra
          split at hra
          · cases hra; rfl
          · cases hra
        refine ⟨l, who, c, [], s, rfl, hx, hnone, hr, ht, ?_⟩
        exact (C35_decided_iff_two_thirds hre hx).1.mp (by rw [hr, ht])
      · rw [hst] at hr
        obtain ⟨l1, who', c', l2, s', rfl, h2⟩ := ih hr
        exact ⟨l1, who', c', l2 ++ [.call who att c], s', by simp, h2⟩

/-- Two thirds exactly are not enough; the third vote decides. -/
example : getResult (run demoCfg demo0 demo1).c = none ∧
    yesStake demoCfg 5 (run demoCfg demo0 demo1).c = 20 ∧ totalAt demoCfg 5 = 30 ∧
    (∃ s, Calls demoCfg (run demoCfg demo0 demo1) "c" 0 (.vote true) s ∧ getResult s = some 103) := by
  refine ⟨by decide +kernel, by decide +kernel, by decide +kernel, _, rfl, by decide +kernel⟩

/-- With `b` gone the votes of `a` and `c` decide the poll. -/
example : getResult (run demoCfg demo0 demo2).c = some 103 := by decide +kernel

/-! ## C36 -/

/-- **C36.** Once there is a result every call is rejected, so result, votes and total never change
again. -/
theorem C36_result_is_final {cfg : Cfg} {w : World} {t : Nat} (hr : getResult w.c = some t) :
    (∀ who att c s', ¬ Calls cfg w who att c s') ∧ ∀ evs, (run cfg w evs).c = w.c := by
  have key : ∀ w : World, getResult w.c = some t → ∀ who att c s', ¬ Calls cfg w who att c s' := by
    intro w hr who att c s' hx
    have hp : ∀ s1, ping (mkEnv cfg w who att) w.c = .ok s1 → False := by
      intro s1 h1
      have := (ping_ok.mp h1).1
      unfold getResult at hr
      rw [this] at hr; cases hr
    obtain ⟨_, ⟨_, h2⟩ | ⟨b, _, h2⟩⟩ := exec_ok.mp hx
    · exact hp _ h2
    · cases h2 with
      | ended b s1 h1 _ => exact hp _ h1
      | cast s1 h1 => exact hp _ h1
      | withdraw s1 h1 => exact hp _ h1
  refine ⟨key w hr, ?_⟩
  intro evs
  unfold run
  induction evs generalizing w with
  | nil => rfl
  | cons ev l ih =>
    have hs : (step cfg w ev).c = w.c := by
      cases ev with
      | tick dt => rfl
      | epochs k => rfl
      | call who att c =>
        rcases step_call (cfg := cfg) (w := w) (who := who) (att := att) (c := c) with
          ⟨s, hx, _⟩ | ⟨_, hst⟩
        · exact absurd hx (key w hr _ _ _ _)
        · rw [hst]
    rw [List.foldl_cons, ih (by rw [hs]; exact hr), hs]

example : getResult (run demoCfg demo0 (demo2 ++ [.epochs 4, .call "a" 0 (.vote false), .call "b" 0 .ping])).c =
    some 103 := by decide +kernel

/-! ## C37 -/

/-- **C37.** At every moment the reported total is the sum of the reported votes, no account is reported
twice, and every reported stake is positive. -/
theorem C37_total_is_the_sum {cfg : Cfg} {w : World} (hr : Reachable cfg w) (e : Env) :
    (getTotalVotedStake e w.c).1 = ((getVotes w.c).map Prod.snd).sum ∧
    ((getVotes w.c).map Prod.fst).Nodup ∧ ∀ p ∈ getVotes w.c, 0 < p.2 := by
  have h := reachable_vinv hr
  refine ⟨h.total, UMap.keys_nodup _, ?_⟩
  rintro ⟨a, v⟩ hp
  exact (h.stake a v (UMap.get_eq_some.mpr hp)).2

/-- **C37.** The reported stakes are the validator stakes of the epoch of the last successful call (the
state only changes in successful calls). -/
theorem C37_stakes_of_last_update {cfg : Cfg} {w : World} (hr : Reachable cfg w)
    {who : AccountId} {att : Nat} {c : Call} {s' : State} (hc : Calls cfg w who att c s') :
    ∀ p ∈ getVotes s', p.2 = stakeAt cfg w.epoch p.1 := by
  obtain ⟨h1, h2⟩ := vinv_exec (reachable_vinv hr) hc
  rintro ⟨a, v⟩ hp
  have := (h1.stake a v (UMap.get_eq_some.mpr hp)).1
  rw [h2] at this
  exact this

example : getVotes (run demoCfg demo0 demo1).c = [("a", 10), ("b", 10)] ∧
    getVotes (run demoCfg demo0 demo2).c = [("a", 10), ("c", 12)] := by decide +kernel

/-! ## C38 -/

/-- **C38.** An account is counted exactly when it has cast a vote and since then neither withdrawn it
nor been without stake in an epoch in which the contract was called. -/
theorem C38_counted_iff {cfg : Cfg} {w0 : World} (hs : Started w0) (evs : List Ev) (a : AccountId) :
    Counted (run cfg w0 evs).c a ↔ Since (step cfg) w0 evs (Casts cfg a) (Loses cfg a) := by
  refine since_iff (I := fun w : World => VInv cfg w.c) (P := fun w : World => Counted w.c a)
    (started_vinv hs) (fun w e h => vinv_step h e) ?_ (fun w e h => step_counted h a e) evs
  rw [started_c hs]
  simp [Counted, getVotes, UMap.empty]

/-- **C38.** A call of anybody else neither adds nor removes the vote of an account that has stake. -/
theorem C38_others_cannot_touch {cfg : Cfg} {w : World} (hr : Reachable cfg w) {a who : AccountId}
    (hne : who ≠ a) {att : Nat} {c : Call} {s' : State} (hc : Calls cfg w who att c s') :
    (Counted s' a → Counted w.c a) ∧ (Counted w.c a → stakeAt cfg w.epoch a ≠ 0 → Counted s' a) := by
  have h := step_counted (reachable_vinv hr) a (.call who att c)
  have hst : (step cfg w (.call who att c)).c = s' := by
    unfold Calls at hc
    simp only [step, hc]
  rw [hst] at h
  constructor
  · intro hs
    rcases h.mp hs with ⟨h1, _⟩ | ⟨h1, _⟩
    · cases h1; exact absurd rfl hne
    · exact h1
  · intro h1 h2
    refine h.mpr (.inr ⟨h1, ?_⟩)
    rintro (⟨g, _⟩ | ⟨g, _⟩)
    · cases g; exact hne rfl
    · exact h2 g

/-- `b` is counted, and no longer after the epoch change. -/
example : Since (step demoCfg) demo0 demo1 (Casts demoCfg "b") (Loses demoCfg "b") ∧
    ¬ Since (step demoCfg) demo0 demo2 (Casts demoCfg "b") (Loses demoCfg "b") :=
  ⟨(C38_counted_iff demo0_started _ _).mp (by unfold Counted; decide +kernel),
   fun h => absurd ((C38_counted_iff demo0_started _ _).mpr h) (by unfold Counted; decide +kernel)⟩

/-- **C38, a withdrawal that comes too late.** When the recount made by the withdrawing call itself decides
the poll, the call is accepted and the vote it wanted to withdraw stays counted for ever
(voting/src/lib.rs:80-82 returns before the vote is removed). -/
theorem C38_deciding_withdrawal_is_ignored {cfg : Cfg} {w : World} (hr : Reachable cfg w) {a : AccountId}
    {s' : State} {t : Nat} (hc : Calls cfg w a 0 (.vote false) s') (ht : getResult s' = some t)
    (ha : Counted w.c a) (hst : stakeAt cfg w.epoch a ≠ 0) (evs : List Ev) :
    Counted (run cfg (step cfg w (.call a 0 (.vote false))) evs).c a := by
  have hstep : (step cfg w (.call a 0 (.vote false))).c = s' := by
    have hx : exec (mkEnv cfg w a 0) w.c (.vote false) = .ok s' := hc
    simp only [step, hx]
  have hfin : getResult (step cfg w (.call a 0 (.vote false))).c = some t := by rw [hstep]; exact ht
  rw [(C36_result_is_final hfin).2 evs]
  refine (step_counted (reachable_vinv hr) a _).mpr (.inr ⟨ha, ?_⟩)
  rintro (⟨_, ho, _⟩ | ⟨h0, _⟩)
  · obtain ⟨_, ⟨h1, _⟩ | ⟨b, hb, h2⟩⟩ := exec_ok.mp hc
    · cases h1
    · cases hb
      cases h2 with
      | ended _ _ h1 hne =>
        obtain ⟨s2, g1, g2⟩ := (open_iff a 0).mp ho
        rw [h1] at g1; cases g1; exact hne g2
      | withdraw s1 h1 hres =>
        have : getResult (withdraw (mkEnv cfg w a 0) s1) = s1.result := rfl
        rw [this, hres] at ht
        cases ht
  · exact hst h0

/-- `a` and `b` hold two thirds exactly; in the next epoch `c` has less, and the withdrawal of `a` closes
the poll with the vote of `a`. -/
def lateCfg : Cfg where
  stakes ep := if ep ≤ 5 then ofList [("a", 10), ("b", 10), ("c", 10)]
    else ofList [("a", 10), ("b", 10), ("c", 9)]

example : ∃ s', Calls lateCfg (run lateCfg demo0 (demo1 ++ [.epochs 1])) "a" 0 (.vote false) s' ∧
    getResult s' = some 103 ∧ Counted (run lateCfg demo0 (demo1 ++ [.epochs 1])).c "a" ∧
    stakeAt lateCfg (run lateCfg demo0 (demo1 ++ [.epochs 1])).epoch "a" = 10 := by
  refine ⟨_, rfl, by decide +kernel, by unfold Counted; decide +kernel, by decide +kernel⟩

/-! ## C65 -/

/-- **C65.** As long as there is no result, `ping` and `vote(false)` are accepted from anybody, and
`vote(true)` from every validator of the current epoch. A `vote(true)` of anybody else is accepted only
when its recount of the earlier votes decides the poll. -/
theorem C65_open_poll_accepts {cfg : Cfg} (hb : Bounded cfg) {w : World} (hr : Reachable cfg w)
    (hn : getResult w.c = none) (who : AccountId) :
    (∃ s', Calls cfg w who 0 .ping s') ∧ (∃ s', Calls cfg w who 0 (.vote false) s') ∧
    ((∃ s', Calls cfg w who 0 (.vote true) s') ↔ 0 < stakeAt cfg w.epoch who ∨ ¬ Open cfg w) := by
  have hv := reachable_vinv hr
  have hT : 2 * validatorTotalStake (mkEnv cfg w who 0) < two128 := hb w.epoch
  obtain ⟨s1, hp⟩ : ∃ s1, ping (mkEnv cfg w who 0) w.c = .ok s1 := by
    by_cases hE : w.epoch = w.c.lastEpochHeight
    · exact ⟨w.c, ping_ok.mpr ⟨hn, .inl ⟨hE, rfl⟩⟩⟩
    · exact ⟨_, ping_ok.mpr ⟨hn, .inr ⟨hE, hT, rfl⟩⟩⟩
  obtain ⟨g1, g2⟩ := vinv_ping hv hp
  have htot : s1.totalVotedStake ≤ totalAt cfg w.epoch := by
    rw [← yesStake_eq g1, g2]; exact yesStake_le _ _ _
  have hvoted : (s1.votes.get who).getD 0 ≤ s1.totalVotedStake := by
    rw [g1.total]
    have := UMap.part_le_sum s1.votes (fun _ v => v) who
    have e4 : s1.votes.part (fun _ v => v) who = (s1.votes.get who).getD 0 := by
      unfold UMap.part; cases s1.votes.get who <;> rfl
    omega
  have hst : stakeAt cfg w.epoch who ≤ totalAt cfg w.epoch := by
    have := stakeSum_le (cfg.stakes w.epoch) [who] (by simp)
    simp only [stakeSum, List.map_cons, List.map_nil, List.sum_cons, List.sum_nil, Nat.add_zero] at this
    exact this
  have hT' : 2 * totalAt cfg w.epoch < two128 := hb w.epoch
  have hopen : Open cfg w ↔ s1.result = none := by
    rw [open_iff who 0]
    constructor
    · rintro ⟨s2, h1, h2⟩; rw [hp] at h1; cases h1; exact h2
    · intro h; exact ⟨s1, hp, h⟩
  refine ⟨⟨s1, exec_ok.mpr ⟨rfl, .inl ⟨rfl, hp⟩⟩⟩, ?_, ?_⟩
  · by_cases hres : s1.result = none
    · exact ⟨_, exec_ok.mpr ⟨rfl, .inr ⟨false, rfl, .withdraw s1 hp hres hvoted (by omega)⟩⟩⟩
    · exact ⟨_, exec_ok.mpr ⟨rfl, .inr ⟨false, rfl, .ended false s1 hp hres⟩⟩⟩
  · rw [hopen]
    constructor
    · rintro ⟨s', hx⟩
      obtain ⟨_, ⟨h, _⟩ | ⟨b, h, h2⟩⟩ := exec_ok.mp hx
      · cases h
      · cases h
        cases h2 with
        | ended _ s2 h1 hr2 => rw [hp] at h1; cases h1; exact .inr hr2
        | cast s2 h1 hr2 h3 => exact .inl h3
    · intro h
      by_cases hres : s1.result = none
      · have hpos : 0 < stakeAt cfg w.epoch who := h.resolve_right (fun hx => hx hres)
        exact ⟨_, exec_ok.mpr ⟨rfl, .inr ⟨true, rfl, .cast s1 hp hres hpos hvoted (by
          rw [validatorStake_eq]
          show s1.totalVotedStake + stakeAt cfg w.epoch who < two128
          omega) hT⟩⟩⟩
      · exact ⟨_, exec_ok.mpr ⟨rfl, .inr ⟨true, rfl, .ended true s1 hp hres⟩⟩⟩

theorem demo_bounded : Bounded demoCfg := by
  intro ep
  unfold totalAt demoCfg
  by_cases h : ep ≤ 5
  · simp only [h, if_true]; decide +kernel
  · simp only [h, if_false]; decide +kernel

example : (∃ s', Calls demoCfg (run demoCfg demo0 demo1) "c" 0 (.vote true) s') ∧
    ¬ (∃ s', Calls demoCfg (run demoCfg demo0 demo1) "x" 0 (.vote true) s') := by
  have hn : getResult (run demoCfg demo0 demo1).c = none := by decide +kernel
  have ho : Open demoCfg (run demoCfg demo0 demo1) := ⟨_, rfl, by decide +kernel⟩
  refine ⟨(C65_open_poll_accepts demo_bounded demo1_reachable hn "c").2.2.mpr (.inl (by decide +kernel)), ?_⟩
  intro h
  rcases (C65_open_poll_accepts demo_bounded demo1_reachable hn "x").2.2.mp h with h | h
  · revert h; decide +kernel
  · exact h ho

end Verif.Voting
