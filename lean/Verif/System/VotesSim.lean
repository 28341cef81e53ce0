import Verif.System.Votes
import Verif.System.JointSim
import Verif.System.Props
import Verif.StakingPool.Props6

/-!
# Histories with the votes of the pools are histories of the system
-/

namespace Verif.System

open Verif

theorem vrun_append (cfg : Cfg) (v : VSys) (l1 l2 : List VEv) :
    vrun cfg v (l1 ++ l2) = vrun cfg (vrun cfg v l1) l2 := by
  induction l1 generalizing v with
  | nil => rfl
  | cons h t ih => exact ih _

theorem vcareful_append {cfg : Cfg} {v : VSys} {l1 l2 : List VEv} :
    VCareful cfg v (l1 ++ l2) ↔ VCareful cfg v l1 ∧ VCareful cfg (vrun cfg v l1) l2 := by
  induction l1 generalizing v with
  | nil => simp [VCareful, vrun]
  | cons h t ih => simp only [List.cons_append, VCareful, vrun, ih, and_assoc]

/-- The events of the system in one event. -/
def plainEv (cfg : Cfg) (v : VSys) : VEv → List Ev
  | .sys ev => if byPool v.sys ev = true then [] else [ev]
  | .deliver i hostOk =>
    match v.votes[i]? with
    | some r =>
      if hostOk = true then
        if r.receiver = cfg.poll then [.vote r.pool 0 (.vote r.isVote)] else []
      else []
    | none => []

theorem vstep_sys (cfg : Cfg) (v : VSys) (ev : VEv) :
    (vstep cfg v ev).sys = run cfg v.sys (plainEv cfg v ev) := by
  cases ev with
  | sys ev => simp only [vstep, plainEv]; split <;> rfl
  | deliver i ok =>
    simp only [vstep, plainEv]
    cases v.votes[i]? with
    | none => rfl
    | some r =>
      simp only [arriveVote]
      cases ok with
      | false => rfl
      | true => simp only [if_true]; split <;> rfl

theorem plainEv_careful {cfg : Cfg} {v : VSys} {ev : VEv}
    (hc : ∀ who att p r, ev = .sys (.whitelist ⟨who, att, .addPool p⟩) →
      Whitelist.exec (Whitelist.mkEnv cfg.validAccountId who att) v.sys.wl (.addPool p) = .ok r →
      v.sys.pools.contains p = true) : Careful cfg v.sys (plainEv cfg v ev) := by
  cases ev with
  | sys ev =>
    simp only [plainEv]
    split
    · trivial
    · refine ⟨?_, trivial⟩
      rintro who att p r rfl hr
      exact hc who att p r rfl hr
  | deliver i ok =>
    simp only [plainEv]
    split
    · split
      · split
        · refine ⟨?_, trivial⟩
          rintro who att p r h; cases h
        · trivial
      · trivial
    · trivial

/-- The system inside is a history of the system. -/
theorem vrun_sys {cfg : Cfg} {v : VSys} {evs : List VEv} (hc : VCareful cfg v evs) :
    ∃ l, Careful cfg v.sys l ∧ (vrun cfg v evs).sys = run cfg v.sys l := by
  induction evs generalizing v with
  | nil => exact ⟨[], trivial, rfl⟩
  | cons ev t ih =>
    obtain ⟨l, h1, h2⟩ := ih hc.2
    refine ⟨plainEv cfg v ev ++ l, careful_append.mpr ⟨plainEv_careful hc.1, ?_⟩, ?_⟩
    · rw [← vstep_sys]; exact h1
    · rw [run_append, ← vstep_sys]; exact h2

/-! ## Pools and poll in one event of the system -/

/-- Pools stay and keep their owner. -/
theorem step_pool_owner {cfg : Cfg} {a : Lockup.NewArgs} {s : Sys} (h : Inv cfg a s) (ev : Ev)
    {p : AccountId} {w : StakingPool.World} (hp : s.pools.get p = some w) :
    ∃ w', (step cfg s ev).pools.get p = some w' ∧ w'.pool.ownerId = w.pool.ownerId := by
  rcases step_pools (fun p w hw => (h.pools p w hw).1) ev with h1 | ⟨q, wq, e, h1, h2⟩ |
    ⟨q, _, _, _, _, _, _, wq, _, h1, h2⟩
  · rw [h1]; exact ⟨w, hp, rfl⟩
  · rw [h2, UMap.get_insert]
    split
    · rename_i heq
      subst heq
      rw [hp] at h1
      cases h1
      obtain ⟨s0, hi⟩ := StakingPool.reachable_inv (h.pools _ _ hp).2
      exact ⟨_, rfl, StakingPool.step_owner hi e⟩
    · exact ⟨w, hp, rfl⟩
  · rw [h2, UMap.get_insert]
    split
    · rename_i heq
      subst heq
      rw [hp] at h1; cases h1
    · exact ⟨w, hp, rfl⟩

theorem run_pool_owner {cfg : Cfg} {a : Lockup.NewArgs} {s : Sys} (h : Inv cfg a s) {evs : List Ev}
    (hc : Careful cfg s evs) {p : AccountId} {w : StakingPool.World} (hp : s.pools.get p = some w) :
    ∃ w', (run cfg s evs).pools.get p = some w' ∧ w'.pool.ownerId = w.pool.ownerId := by
  induction evs generalizing s w with
  | nil => exact ⟨w, hp, rfl⟩
  | cons ev t ih =>
    obtain ⟨w1, h1, h2⟩ := step_pool_owner h ev hp
    obtain ⟨w2, h3, h4⟩ := ih (inv_step h ev hc.1).1 hc.2 h1
    exact ⟨w2, h3, h4.trans h2⟩

theorem runExt_poll (cfg : Cfg) (s : Sys) (q : Lockup.Pending) (ok : Bool) (r : Lockup.PResult) :
    (runExt cfg s q ok r).2.poll = s.poll := by
  unfold runExt
  split
  · rfl
  split
  · rename_i p att c _
    cases hw : s.pools.get p with
    | none => rfl
    | some w => simp only [callPool]; split <;> rfl
  · split
    · rename_i p view _
      cases hw : s.pools.get p <;> rfl
    · split <;> rfl

theorem execute_poll (cfg : Cfg) (s : Sys) (i : Nat) (ok : Bool) (r : Lockup.PResult) :
    (execute cfg s i ok r).poll = s.poll := by
  unfold execute
  split
  · rename_i ext cb _
    have h := runExt_poll cfg s ⟨ext, cb, .sent⟩ ok r
    cases hx : runExt cfg s ⟨ext, cb, .sent⟩ ok r with
    | mk r' s' =>
      rw [hx] at h
      cases cb <;> exact h
  · rfl

/-- The event of the poll in an event of the system. -/
def pollEv : Ev → List Voting.Ev
  | .vote who att c => [.call who att c]
  | .voteEpochs k => [.epochs k]
  | .tick dt => [.tick dt]
  | _ => []

theorem step_poll (cfg : Cfg) (s : Sys) (ev : Ev) :
    (step cfg s ev).poll = Voting.run cfg.voting s.poll (pollEv ev) := by
  cases ev with
  | execute i ok r => exact execute_poll cfg s i ok r
  | pool p pev =>
    cases hw : s.pools.get p with
    | none => simp only [step, hw]; rfl
    | some w =>
      cases pev with
      | call who att c => simp only [step, hw]; split <;> rfl
      | _ => simp only [step, hw]; rfl
  | create p deployer owner key fee balance epoch =>
    simp only [step, create]
    split
    · rfl
    · split
      · split <;> rfl
      · rfl
  | _ => rfl

/-- Only `vote(true)` of `p` itself adds its vote. -/
theorem step_counted_of {cfg : Cfg} {a : Lockup.NewArgs} {s : Sys} (h : Inv cfg a s) {ev : Ev}
    {p : AccountId} (hn : Voting.Counted (step cfg s ev).poll.c p) :
    Voting.Counted s.poll.c p ∨ ev = .vote p 0 (.vote true) := by
  rw [step_poll] at hn
  have key : ∀ e, Voting.Counted (Voting.step cfg.voting s.poll e).c p →
      Voting.Counted s.poll.c p ∨ e = .call p 0 (.vote true) := by
    intro e he
    rcases (Voting.step_counted (Voting.reachable_vinv h.poll) p e).mp he with h1 | h1
    · exact .inr h1.1
    · exact .inl h1.1
  cases ev with
  | vote who att c =>
    rcases key (.call who att c) hn with h1 | h1
    · exact .inl h1
    · cases h1; exact .inr rfl
  | voteEpochs k => exact .inl hn
  | tick dt => exact .inl hn
  | _ => exact .inl hn

/-- Only `vote(false)` of `p` itself takes its vote away while `p` has stake. -/
theorem step_counted_stays {cfg : Cfg} {a : Lockup.NewArgs} {s : Sys} (h : Inv cfg a s) {ev : Ev}
    {p : AccountId} (hst : Voting.stakeAt cfg.voting s.poll.epoch p ≠ 0)
    (hn : Voting.Counted s.poll.c p) :
    Voting.Counted (step cfg s ev).poll.c p ∨ ev = .vote p 0 (.vote false) := by
  rw [step_poll]
  have key : ∀ e, Voting.Counted (Voting.step cfg.voting s.poll e).c p ∨
      e = .call p 0 (.vote false) := by
    intro e
    by_cases hl : Voting.Loses cfg.voting p s.poll e
    · rcases hl with h1 | h1
      · exact .inr h1.1
      · exact absurd h1.1 hst
    · exact .inl ((Voting.step_counted (Voting.reachable_vinv h.poll) p e).mpr (.inr ⟨hn, hl⟩))
  cases ev with
  | vote who att c =>
    rcases key (.call who att c) with h1 | h1
    · exact .inl h1
    · cases h1; exact .inr rfl
  | voteEpochs k => exact .inl hn
  | tick dt => exact .inl hn
  | _ => exact .inl hn

/-! ## Orders of the owners -/

/-- Promises of pools that are votes come from the method `vote` called by the owner. -/
theorem voteCall_order {e : StakingPool.Env} {q : StakingPool.Pool} {c : StakingPool.Call}
    {r : StakingPool.Pool × List StakingPool.Eff} (hx : StakingPool.exec e q c = .ok r)
    {x : AccountId} {b : Bool} (hm : StakingPool.Eff.voteCall x b ∈ r.2) :
    e.predecessor = q.ownerId ∧ e.attachedDeposit = 0 ∧ c = .vote x b := by
  have hre : ∀ {s effs}, StakingPool.internalRestake e s = .ok effs →
      StakingPool.Eff.voteCall x b ∉ effs := by
    intro s effs h
    rcases StakingPool.internalRestake_ok.mp h with ⟨_, rfl⟩ | ⟨_, _, rfl⟩ <;> simp
  have hri : ∀ {s n effs}, StakingPool.restakeIf e s n = .ok effs →
      StakingPool.Eff.voteCall x b ∉ effs := by
    intro s n effs h
    rcases StakingPool.restakeIf_ok.mp h with ⟨_, rfl⟩ | ⟨_, h⟩
    · simp
    · exact hre h
  have hwd : ∀ {s y z}, StakingPool.internalWithdraw e s y = .ok z →
      StakingPool.Eff.voteCall x b ∉ z.2 := by
    intro s y z h
    simp only [StakingPool.internalWithdraw, bind_ok, require_ok, pure_ok] at h
    aesop
  obtain ⟨p, effs⟩ := r
  cases c <;>
    simp only [StakingPool.exec, StakingPool.ping, StakingPool.deposit, StakingPool.depositAndStake,
      StakingPool.withdrawAll, StakingPool.withdraw, StakingPool.stakeAll, StakingPool.stake,
      StakingPool.unstakeAll, StakingPool.unstake, StakingPool.onStakeAction,
      StakingPool.updateStakingKey, StakingPool.updateRewardFeeFraction, StakingPool.vote,
      StakingPool.pauseStaking, StakingPool.resumeStaking, bind_ok, pure_ok, Prod.exists,
      Prod.mk.injEq, StakingPool.notPayable_ok, StakingPool.assertOwner_ok, require_ok] at hx
  case ping => obtain ⟨_, _, _, _, _, _, h, rfl, rfl⟩ := hx; exact absurd hm (hri h)
  case deposit => obtain ⟨_, _, _, _, _, _, _, h, rfl, rfl⟩ := hx; exact absurd hm (hri h)
  case depositAndStake => obtain ⟨_, _, _, _, _, _, _, _, _, h, rfl, rfl⟩ := hx; exact absurd hm (hre h)
  case withdrawAll =>
    obtain ⟨_, _, _, _, _, _, _, h1, _, h, rfl, rfl⟩ := hx
    rcases List.mem_append.mp hm with h2 | h2
    · exact absurd h2 (hwd h1)
    · exact absurd h2 (hri h)
  case withdraw =>
    obtain ⟨_, _, _, _, _, _, _, h1, _, h, rfl, rfl⟩ := hx
    rcases List.mem_append.mp hm with h2 | h2
    · exact absurd h2 (hwd h1)
    · exact absurd h2 (hri h)
  case stakeAll => obtain ⟨_, _, _, _, _, _, _, _, h, rfl, rfl⟩ := hx; exact absurd hm (hre h)
  case stake => obtain ⟨_, _, _, _, _, _, _, _, h, rfl, rfl⟩ := hx; exact absurd hm (hre h)
  case unstakeAll => obtain ⟨_, _, _, _, _, _, _, _, _, _, h, rfl, rfl⟩ := hx; exact absurd hm (hre h)
  case unstake => obtain ⟨_, _, _, _, _, _, _, _, h, rfl, rfl⟩ := hx; exact absurd hm (hre h)
  case onStakeAction =>
    obtain ⟨_, _, _, _, _, _, h⟩ := hx
    split at h
    · simp only [bind_ok, pure_ok, Prod.mk.injEq] at h
      obtain ⟨_, _, _, rfl⟩ := h
      simp at hm
    · cases h; cases hm
  case updateStakingKey => obtain ⟨_, _, _, _, _, _, _, _, h, rfl, rfl⟩ := hx; exact absurd hm (hre h)
  case updateRewardFeeFraction =>
    obtain ⟨_, _, _, _, _, _, _, _, _, _, _, _, h, rfl, rfl⟩ := hx; exact absurd hm (hri h)
  case vote =>
    obtain ⟨_, h0, _, ho, _, _, rfl, rfl⟩ := hx
    simp only [List.mem_singleton, StakingPool.Eff.voteCall.injEq] at hm
    obtain ⟨rfl, rfl⟩ := hm
    exact ⟨ho, h0, rfl⟩
  case pauseStaking =>
    obtain ⟨_, _, _, _, _, _, _, _, _, _, _, rfl, rfl⟩ := hx; simp at hm
  case resumeStaking =>
    obtain ⟨_, _, _, _, _, _, _, _, _, _, h, rfl, rfl⟩ := hx; exact absurd hm (hre h)

/-- What a vote sent in an event says about the event. -/
theorem sentVotes_order {cfg : Cfg} {s : Sys} {ev : Ev} {r : VoteReceipt}
    (hr : r ∈ sentVotes cfg s ev) :
    ∃ w, s.pools.get r.pool = some w ∧
      ev = .pool r.pool (.call w.pool.ownerId 0 (.vote r.receiver r.isVote)) := by
  unfold sentVotes at hr
  split at hr
  · rename_i p who att c
    split at hr
    · rename_i w hw
      split at hr
      · cases hr
      · split at hr
        · rename_i q effs hx
          simp only [votesOf, List.mem_filterMap] at hr
          obtain ⟨e, he, h1⟩ := hr
          cases e with
          | voteCall x b =>
            simp only [Option.some.injEq] at h1
            subst h1
            obtain ⟨h2, h3, h4⟩ := voteCall_order hx he
            simp only [StakingPool.mkEnv] at h2 h3
            subst h2 h3 h4
            exact ⟨w, hw, rfl⟩
          | _ => simp at h1
        · cases hr
    · cases hr
  · cases hr

end Verif.System
