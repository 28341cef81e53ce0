import Verif.System.VotesSim
import Verif.System.Demo

/-!
# System property C107: staking pools vote as their owners order
-/

namespace Verif.System

open Verif

/-! ## A concrete case -/

/-- As `demoCfg`; the two pools are validators. -/
def votesCfg : Cfg :=
  { demoCfg with voting := ⟨fun _ => Voting.ofList [("pool", 60), ("pool2", 30), ("x", 10)]⟩ }

/-- The system after `demoEvs`; no votes. -/
def votesDemo : VSys := ⟨run votesCfg (startOf Lockup.pollArgs) demoEvs, []⟩

theorem votesDemo_reachable : Reachable votesCfg Lockup.pollArgs votesDemo.sys := by
  refine ⟨startOf Lockup.pollArgs, demoEvs, ?_, careful_of_bool (by decide +kernel), rfl⟩
  exact ⟨demo_started.lk, rfl, demo_started.pools, demo_started.listed,
    ⟨{ Voting.demo0 with now := 1000 }, [],
      ⟨Voting.mkEnv Voting.demoCfg { Voting.demo0 with now := 1000 } "x" 0, rfl, rfl, rfl⟩, rfl⟩,
    demo_started.now⟩

/-- The owner of both pools votes with them; the votes arrive in the other order. -/
def votesEvs : List VEv :=
  [.sys (.pool "pool" (.call "boss" 0 (.vote "poll" true))),
   .sys (.pool "pool2" (.call "boss" 0 (.vote "poll" true))), .deliver 1 true, .sys (.tick 3),
   .deliver 0 true]

/-- The owner of the lockup asks the poll. -/
def votesAsk : List VEv :=
  [.sys (.tick 4), .sys (.call "owner" 0 (.owner .checkTransfersVote)),
   .sys (.execute 0 true .failed), .sys (.callback 0)]

theorem votesEvs_careful {v : VSys} : VCareful votesCfg v (votesEvs ++ votesAsk) := by
  simp [votesEvs, votesAsk, VCareful]

theorem votesDemo_pool {p : AccountId}
    (h : (match votesDemo.sys.pools.get p with
      | some w => decide (w.pool.ownerId = "boss") | none => false) = true) :
    ∃ w, votesDemo.sys.pools.get p = some w ∧ StakingPool.getOwnerId w.pool = "boss" := by
  cases hg : votesDemo.sys.pools.get p with
  | none => rw [hg] at h; cases h
  | some w => rw [hg] at h; exact ⟨w, rfl, of_decide_eq_true h⟩

/-! ## The theorems -/

/-- In the history `evs` from `v` account `o` orders the pool `p` to call `vote(b)` of the poll, and the
pool accepts. -/
def Orders (cfg : Cfg) (v : VSys) (evs : List VEv) (p o : AccountId) (b : Bool) : Prop :=
  ∃ l1 l2 w r, evs = l1 ++ .sys (.pool p (.call o 0 (.vote cfg.poll b))) :: l2 ∧
    (vrun cfg v l1).sys.pools.get p = some w ∧
    StakingPool.exec (StakingPool.mkEnv (cfg.pool p) w o 0 []) w.pool (.vote cfg.poll b) = .ok r

theorem Orders.snoc {cfg : Cfg} {v : VSys} {evs : List VEv} {p o : AccountId} {b : Bool}
    (h : Orders cfg v evs p o b) (ev : VEv) : Orders cfg v (evs ++ [ev]) p o b := by
  obtain ⟨l1, l2, w, r, h1, h2⟩ := h
  exact ⟨l1, l2 ++ [ev], w, r, by rw [h1]; simp, h2⟩

theorem sentVotes_accepted {cfg : Cfg} {s : Sys} {p who : AccountId} {att : Nat}
    {c : StakingPool.Call} {w : StakingPool.World} (hp : s.pools.get p = some w) {r : VoteReceipt}
    (hr : r ∈ sentVotes cfg s (.pool p (.call who att c))) :
    ∃ x, StakingPool.exec (StakingPool.mkEnv (cfg.pool p) w who att []) w.pool c = .ok x := by
  simp only [sentVotes, hp] at hr
  split at hr
  · cases hr
  · split at hr
    · rename_i q effs hx
      exact ⟨_, hx⟩
    · cases hr

/-- The votes of pool `p` under way to the poll were ordered by its owner, or were under way at the
start. -/
theorem vrun_votes {cfg : Cfg} {a : Lockup.NewArgs} {v : VSys} (h : Inv cfg a v.sys)
    {p : AccountId} {w : StakingPool.World} (hp : v.sys.pools.get p = some w) (evs : List VEv)
    (hc : VCareful cfg v evs) (r : VoteReceipt) (hr : r ∈ (vrun cfg v evs).votes) (hrp : r.pool = p)
    (hrr : r.receiver = cfg.poll) :
    r ∈ v.votes ∨ Orders cfg v evs p (StakingPool.getOwnerId w.pool) r.isVote := by
  induction evs using List.reverseRecOn with
  | nil => exact .inl hr
  | append_singleton l ev ih =>
    obtain ⟨hc1, hc2⟩ := vcareful_append.mp hc
    rw [vrun_append] at hr
    have old : r ∈ (vrun cfg v l).votes → r ∈ v.votes ∨
        Orders cfg v (l ++ [ev]) p (StakingPool.getOwnerId w.pool) r.isVote := fun hx =>
      (ih hc1 hx).imp id (fun h => h.snoc ev)
    simp only [vrun] at hr
    cases ev with
    | sys ev =>
      simp only [vstep] at hr
      split at hr
      · exact old hr
      · rcases List.mem_append.mp hr with h1 | h1
        · exact old h1
        · right
          obtain ⟨w', hw', hev⟩ := sentVotes_order h1
          obtain ⟨lp, hlc, hls⟩ := vrun_sys hc1
          obtain ⟨w1, g1, g2⟩ := run_pool_owner h hlc hp
          rw [← hls] at g1
          rw [hrp] at hw' hev
          rw [g1] at hw'
          cases hw'
          rw [hrr, g2] at hev
          subst hev
          obtain ⟨x, hx⟩ := sentVotes_accepted g1 h1
          exact ⟨l, [], _, x, rfl, g1, hx⟩
    | deliver i ok =>
      simp only [vstep] at hr
      split at hr
      · exact old (List.mem_of_mem_eraseIdx hr)
      · exact old hr

/-- **C107.** A vote of a staking pool is a vote of its owner: when the poll counts the vote of a pool,
it did so before, or the vote was already under way, or the owner of the pool ordered it in between by
an accepted call of `vote`. -/
theorem C107_pool_vote_is_the_owners {cfg : Cfg} {a : Lockup.NewArgs} {v : VSys}
    (h : Reachable cfg a v.sys) {evs : List VEv} (hc : VCareful cfg v evs) {p : AccountId}
    {w : StakingPool.World} (hp : v.sys.pools.get p = some w)
    (hn : Voting.Counted (vrun cfg v evs).sys.poll.c p) :
    Voting.Counted v.sys.poll.c p ∨ ⟨p, cfg.poll, true⟩ ∈ v.votes ∨
      Orders cfg v evs p (StakingPool.getOwnerId w.pool) true := by
  have hi := reachable_inv h
  induction evs using List.reverseRecOn with
  | nil => exact .inl hn
  | append_singleton l ev ih =>
    obtain ⟨hc1, hc2⟩ := vcareful_append.mp hc
    have old : Voting.Counted (vrun cfg v l).sys.poll.c p → _ := fun hx =>
      (ih hc1 hx).imp id (fun h => h.imp id (fun h => h.snoc ev))
    obtain ⟨lp, hlc, hls⟩ := vrun_sys hc1
    have hil : Inv cfg a (vrun cfg v l).sys := by rw [hls]; exact (inv_run hi hlc).1
    rw [vrun_append] at hn
    simp only [vrun] at hn
    cases ev with
    | sys ev =>
      simp only [vstep] at hn
      split at hn
      · exact old hn
      · rename_i hbp
        rcases step_counted_of hil hn with h1 | rfl
        · exact old h1
        · exfalso
          obtain ⟨w1, g1, _⟩ := run_pool_owner hi hlc hp
          rw [← hls] at g1
          exact hbp (contains_get.mpr ⟨w1, g1⟩)
    | deliver i ok =>
      simp only [vstep] at hn
      split at hn
      · rename_i r hr
        simp only at hn
        split at hn
        · simp only [arriveVote] at hn
          split at hn
          · rename_i hrr
            rcases step_counted_of hil hn with h1 | h1
            · exact old h1
            · simp only [Ev.vote.injEq, Voting.Call.vote.injEq, true_and] at h1
              obtain ⟨rp, rb⟩ := h1
              have hm := List.mem_of_getElem? hr
              rcases vrun_votes hi hp l hc1 r hm rp hrr with h2 | h2
              · right; left
                obtain ⟨x, y, z⟩ := r
                simp only at rp rb hrr
                subst rp rb hrr
                exact h2
              · rw [rb] at h2
                exact .inr (.inr (h2.snoc _))
          · exact old hn
        · exact old hn
      · exact old hn

example : VCareful votesCfg votesDemo (votesEvs ++ votesAsk) ∧
    (∃ w, votesDemo.sys.pools.get "pool" = some w ∧ StakingPool.getOwnerId w.pool = "boss") ∧
    Voting.Counted (vrun votesCfg votesDemo (votesEvs ++ votesAsk)).sys.poll.c "pool" ∧
    ¬ Voting.Counted votesDemo.sys.poll.c "pool" ∧ votesDemo.votes = [] :=
  ⟨votesEvs_careful, votesDemo_pool (by decide +kernel), by unfold Voting.Counted; decide +kernel,
    by unfold Voting.Counted; decide +kernel, rfl⟩

theorem epoch_mono (cfg : Cfg) (s : Sys) (ev : Ev) : s.poll.epoch ≤ (step cfg s ev).poll.epoch := by
  rw [step_poll]
  cases ev with
  | vote who att c =>
    simp only [pollEv, Voting.run, List.foldl, Voting.step]
    split <;> exact Nat.le_refl _
  | voteEpochs k => exact Nat.le_add_right _ _
  | _ => exact Nat.le_refl _

theorem run_epoch_mono (cfg : Cfg) (s : Sys) (evs : List Ev) :
    s.poll.epoch ≤ (run cfg s evs).poll.epoch := by
  induction evs generalizing s with
  | nil => exact Nat.le_refl _
  | cons ev t ih => exact Nat.le_trans (epoch_mono cfg s ev) (ih _)

/-- **C107.** Nobody but the owner takes the vote of a pool back: a counted vote of a pool that has
stake stays counted, whatever happens, unless its owner orders `vote(false)` (or such a call was
already under way). -/
theorem C107_pool_vote_stands {cfg : Cfg} {a : Lockup.NewArgs} {v : VSys}
    (h : Reachable cfg a v.sys) {evs : List VEv} (hc : VCareful cfg v evs) {p : AccountId}
    {w : StakingPool.World} (hp : v.sys.pools.get p = some w)
    (hn : Voting.Counted v.sys.poll.c p)
    (hst : ∀ ep, v.sys.poll.epoch ≤ ep → ep ≤ (vrun cfg v evs).sys.poll.epoch →
      Voting.stakeAt cfg.voting ep p ≠ 0)
    (hw : ⟨p, cfg.poll, false⟩ ∉ v.votes)
    (ho : ¬ Orders cfg v evs p (StakingPool.getOwnerId w.pool) false) :
    Voting.Counted (vrun cfg v evs).sys.poll.c p := by
  have hi := reachable_inv h
  induction evs using List.reverseRecOn with
  | nil => exact hn
  | append_singleton l ev ih =>
    obtain ⟨hc1, hc2⟩ := vcareful_append.mp hc
    obtain ⟨lp, hlc, hls⟩ := vrun_sys hc1
    have hil : Inv cfg a (vrun cfg v l).sys := by rw [hls]; exact (inv_run hi hlc).1
    have hmono : (vrun cfg v l).sys.poll.epoch ≤ (vrun cfg v (l ++ [ev])).sys.poll.epoch := by
      rw [vrun_append]
      show _ ≤ (vstep cfg (vrun cfg v l) ev).sys.poll.epoch
      rw [vstep_sys]
      exact run_epoch_mono _ _ _
    have hcl := ih hc1 (fun ep h1 h2 => hst ep h1 (Nat.le_trans h2 hmono)) (fun h => ho (h.snoc ev))
    have hsl : Voting.stakeAt cfg.voting (vrun cfg v l).sys.poll.epoch p ≠ 0 :=
      hst _ (by rw [hls]; exact run_epoch_mono _ _ _) hmono
    rw [vrun_append]
    simp only [vrun]
    cases ev with
    | sys ev =>
      simp only [vstep]
      split
      · exact hcl
      · rename_i hbp
        rcases step_counted_stays hil hsl hcl (ev := ev) with h1 | rfl
        · exact h1
        · exfalso
          obtain ⟨w1, g1, _⟩ := run_pool_owner hi hlc hp
          rw [← hls] at g1
          exact hbp (contains_get.mpr ⟨w1, g1⟩)
    | deliver i ok =>
      simp only [vstep]
      split
      · rename_i r hr
        simp only
        split
        · simp only [arriveVote]
          split
          · rename_i hrr
            rcases step_counted_stays hil hsl hcl (ev := .vote r.pool 0 (.vote r.isVote)) with h1 | h1
            · exact h1
            · exfalso
              simp only [Ev.vote.injEq, Voting.Call.vote.injEq, true_and] at h1
              obtain ⟨rp, rb⟩ := h1
              have hm := List.mem_of_getElem? hr
              rcases vrun_votes hi hp l hc1 r hm rp hrr with h2 | h2
              · obtain ⟨x, y, z⟩ := r
                simp only at rp rb hrr
                subst rp rb hrr
                exact hw h2
              · rw [rb] at h2
                exact ho (h2.snoc _)
          · exact hcl
        · exact hcl
      · exact hcl

example : let v := vrun votesCfg votesDemo (votesEvs.take 3)
    Reachable votesCfg Lockup.pollArgs v.sys ∧ v.sys.pools.contains "pool2" = true ∧
    Voting.Counted v.sys.poll.c "pool2" ∧ (∀ ep, Voting.stakeAt votesCfg.voting ep "pool2" ≠ 0) ∧
    ⟨"pool2", "poll", false⟩ ∉ v.votes ∧ v.votes ≠ [] ∧
    ∀ o, ¬ Orders votesCfg v (votesEvs.drop 3 ++ votesAsk) "pool2" o false := by
  refine ⟨?_, by decide +kernel, by unfold Voting.Counted; decide +kernel, ?_, by decide +kernel,
    by decide +kernel, ?_⟩
  · obtain ⟨l, h1, h2⟩ := vrun_sys (cfg := votesCfg) (v := votesDemo) (evs := votesEvs.take 3)
      (by simp [votesEvs, VCareful])
    rw [h2]; exact votesDemo_reachable.run h1
  · intro ep
    show Voting.stakeAt votesCfg.voting 0 "pool2" ≠ 0
    decide +kernel
  · rintro o ⟨l1, l2, w, r, h1, _⟩
    have : VEv.sys (.pool "pool2" (.call o 0 (.vote votesCfg.poll false))) ∈
        votesEvs.drop 3 ++ votesAsk := by rw [h1]; simp
    simp [votesEvs, votesAsk] at this

/-- The owner `o` orders the pool `p` to vote, and the receipt is executed (`k` votes were under
way). -/
def voteOrder (cfg : Cfg) (p o : AccountId) (b : Bool) (k : Nat) : List VEv :=
  [.sys (.pool p (.call o 0 (.vote cfg.poll b))), .deliver k true]

/-- **C107.** The owner of a pool can vote with it: while the poll is open (also after its recount), one
call of `vote` by the owner and the receipt it sends set the vote of the pool, or take it back; nothing
else changes but the poll. To vote `true` the pool must be a validator. -/
theorem C107_owner_votes {cfg : Cfg} {a : Lockup.NewArgs} {v : VSys} (h : Reachable cfg a v.sys)
    (hb : Voting.Bounded cfg.voting) {p : AccountId} {w : StakingPool.World}
    (hp : v.sys.pools.get p = some w) (hop : StakingPool.getOwnerId w.pool ≠ p)
    (hol : StakingPool.getOwnerId w.pool ≠ cfg.lockup) (hva : cfg.validAccountId cfg.poll = true)
    (hopen : Voting.Open cfg.voting v.sys.poll) {b : Bool}
    (hst : b = true → Voting.stakeAt cfg.voting v.sys.poll.epoch p ≠ 0) :
    let v' := vrun cfg v (voteOrder cfg p (StakingPool.getOwnerId w.pool) b v.votes.length)
    (Voting.Counted v'.sys.poll.c p ↔ b = true) ∧ v'.votes = v.votes ∧ v'.sys.lk = v.sys.lk ∧
    v'.sys.wl = v.sys.wl ∧ (∀ q, v'.sys.pools.get q = v.sys.pools.get q) ∧
    v'.sys.poll.epoch = v.sys.poll.epoch ∧ v'.sys.poll.now = v.sys.poll.now := by
  have hi := reachable_inv h
  have hx : StakingPool.exec (StakingPool.mkEnv (cfg.pool p) w w.pool.ownerId 0 []) w.pool
      (.vote cfg.poll b) = .ok (w.pool, [.voteCall cfg.poll b]) := by
    simp only [StakingPool.exec, StakingPool.vote, bind_ok, StakingPool.notPayable_ok,
      StakingPool.assertOwner_ok, require_ok, pure_ok]
    exact ⟨(), rfl, (), rfl, (), hva, trivial⟩
  have hsent : sentVotes cfg v.sys (.pool p (.call w.pool.ownerId 0 (.vote cfg.poll b))) =
      [⟨p, cfg.poll, b⟩] := by
    have hor : ¬ (w.pool.ownerId = p ∨ w.pool.ownerId = cfg.lockup) := fun h => h.elim hop hol
    simp only [sentVotes, hp, hor, if_false, hx]
    rfl
  have hcom : StakingPool.step (cfg.pool p) w (.call w.pool.ownerId 0 (.vote cfg.poll b)) = w := by
    rw [step_call (by exact hop) hx]
    simp [StakingPool.commit, StakingPool.paidOut, StakingPool.newReceipts,
      StakingPool.Call.isRounding, StakingPool.paidTo]
  have h1 : step cfg v.sys (.pool p (.call w.pool.ownerId 0 (.vote cfg.poll b))) =
      { v.sys with pools := v.sys.pools.insert p w } := by
    simp only [step, hp, if_neg (show ¬ w.pool.ownerId = cfg.lockup from hol), hcom]
  intro v'
  have hv' : v' = ⟨step cfg { v.sys with pools := v.sys.pools.insert p w } (.vote p 0 (.vote b)),
      v.votes⟩ := by
    show vrun cfg v (voteOrder cfg p w.pool.ownerId b v.votes.length) = _
    simp only [voteOrder, vrun, vstep, byPool, Bool.false_eq_true, if_false, h1, hsent,
      List.getElem?_append_right (Nat.le_refl _), Nat.sub_self, List.getElem?_cons_zero, if_true,
      arriveVote, List.eraseIdx_append_of_length_le (Nat.le_refl _), List.eraseIdx_cons_zero,
      List.append_nil]
  have hpoll : v'.sys.poll = Voting.step cfg.voting v.sys.poll (.call p 0 (.vote b)) := by
    rw [hv']; rfl
  have hacc : ∃ s', Voting.Calls cfg.voting v.sys.poll p 0 (.vote b) s' := by
    have hres : Voting.getResult v.sys.poll.c = none := by
      cases hg : Voting.getResult v.sys.poll.c with
      | none => rfl
      | some t =>
        obtain ⟨s, hs, _⟩ := hopen
        exact absurd hs ((Voting.C36_result_is_final hg).1 _ _ _ _)
    have h65 := Voting.C65_open_poll_accepts hb hi.poll hres p
    cases b with
    | false => exact h65.2.1
    | true => exact h65.2.2.mpr (.inl (Nat.pos_of_ne_zero (hst rfl)))
  refine ⟨?_, by rw [hv'], by rw [hv']; rfl, by rw [hv']; rfl, ?_, ?_, ?_⟩
  · rw [hpoll, Voting.step_counted (Voting.reachable_vinv hi.poll)]
    cases b with
    | false =>
      simp only [Bool.false_eq_true, iff_false]
      rintro (⟨h2, _⟩ | ⟨_, h2⟩)
      · cases h2
      · exact h2 (.inl ⟨rfl, hopen, hacc⟩)
    | true => exact ⟨fun _ => rfl, fun _ => .inl ⟨rfl, hopen, hacc⟩⟩
  · intro q
    rw [hv']
    show (v.sys.pools.insert p w).get q = _
    rw [UMap.get_insert]
    split
    · rename_i heq; subst heq; exact hp.symm
    · rfl
  · rw [hpoll]; simp only [Voting.step]; split <;> rfl
  · rw [hpoll]; simp only [Voting.step]; split <;> rfl

theorem votesCfg_bounded : Voting.Bounded votesCfg.voting := by
  intro ep
  show 2 * Voting.totalAt votesCfg.voting 0 < two128
  decide +kernel

theorem votesDemo_open : Voting.Open votesCfg.voting votesDemo.sys.poll := by
  have h : (match Voting.exec (Voting.mkEnv votesCfg.voting votesDemo.sys.poll "anyone" 0)
      votesDemo.sys.poll.c .ping with
      | .ok s => decide (Voting.getResult s = none) | .error _ => false) = true := by decide +kernel
  unfold Voting.Open Voting.Calls
  cases hx : Voting.exec (Voting.mkEnv votesCfg.voting votesDemo.sys.poll "anyone" 0)
      votesDemo.sys.poll.c .ping with
  | error m => rw [hx] at h; cases h
  | ok s => rw [hx] at h; exact ⟨s, rfl, of_decide_eq_true h⟩

example : Voting.Bounded votesCfg.voting ∧ Voting.Open votesCfg.voting votesDemo.sys.poll ∧
    (∃ w, votesDemo.sys.pools.get "pool" = some w ∧ StakingPool.getOwnerId w.pool = "boss") ∧
    "boss" ≠ "pool" ∧ "boss" ≠ votesCfg.lockup ∧ votesCfg.validAccountId votesCfg.poll = true ∧
    Voting.stakeAt votesCfg.voting votesDemo.sys.poll.epoch "pool" ≠ 0 :=
  ⟨votesCfg_bounded, votesDemo_open, votesDemo_pool (by decide +kernel),
    by decide +kernel, by decide +kernel, rfl, by decide +kernel⟩

/-- **C107.** Where the transfers of a lockup come from: they are enabled only after accounts with more
than two thirds of the stake of some epoch voted, and every staking pool among these voted by order of
its owner, unless its vote was counted or under way when the history began. -/
theorem C107_transfers_enabled_by_pool_owners {cfg : Cfg} {a : Lockup.NewArgs} {v : VSys}
    (h : Reachable cfg a v.sys) {evs : List VEv} (hc : VCareful cfg v evs) {t : Nat}
    (ha : a.transfers = .disabled cfg.poll)
    (ht : (vrun cfg v evs).sys.lk.c.info.transfers = .enabled t) :
    ∃ (ep : Nat) (V : List AccountId), V.Nodup ∧
      3 * (V.map (Voting.stakeAt cfg.voting ep)).sum > 2 * Voting.totalAt cfg.voting ep ∧
      ∀ p ∈ V, ∀ w, v.sys.pools.get p = some w →
        Voting.Counted v.sys.poll.c p ∨ ⟨p, cfg.poll, true⟩ ∈ v.votes ∨
          Orders cfg v evs p (StakingPool.getOwnerId w.pool) true := by
  obtain ⟨lp, hlc, hls⟩ := vrun_sys hc
  have hr : Reachable cfg a (vrun cfg v evs).sys := by rw [hls]; exact h.run hlc
  obtain ⟨h1, _, w0, l1, who, c, l2, s', h2, h3, h4, h5, h6⟩ :=
    C88_transfers_enabled_by_two_thirds hr ha ht
  have hs' : Voting.step cfg.voting (Voting.run cfg.voting w0 l1) (.call who 0 c) =
      { Voting.run cfg.voting w0 l1 with c := s' } := by
    have hx : Voting.exec _ _ _ = _ := h4
    simp only [Voting.step, hx]
  have hdec : ∃ t', Voting.getResult s' = some t' := by
    have := (Voting.C35_decided_iff_two_thirds ⟨w0, l1, h2, rfl⟩ h4).1.mpr h6
    exact ⟨_, this⟩
  obtain ⟨t', ht'⟩ := hdec
  have hfin : (vrun cfg v evs).sys.poll.c = s' := by
    rw [h3]
    have : Voting.run cfg.voting w0 (l1 ++ .call who 0 c :: l2) =
        Voting.run cfg.voting { Voting.run cfg.voting w0 l1 with c := s' } l2 := by
      rw [← hs']; simp [Voting.run]
    rw [this]
    exact (Voting.C36_result_is_final (cfg := cfg.voting)
      (w := { Voting.run cfg.voting w0 l1 with c := s' }) ht').2 l2
  refine ⟨(Voting.run cfg.voting w0 l1).epoch, (Voting.getVotes s').map Prod.fst, ?_, ?_, ?_⟩
  · exact s'.votes.nodup
  · have : ((Voting.getVotes s').map Prod.fst).map
        (Voting.stakeAt cfg.voting (Voting.run cfg.voting w0 l1).epoch) =
        (Voting.getVotes s').map (fun p => Voting.stakeAt cfg.voting
          (Voting.run cfg.voting w0 l1).epoch p.1) := by
      rw [List.map_map]; rfl
    rw [this]
    exact h6
  · intro p hp w hw
    refine C107_pool_vote_is_the_owners h hc hw ?_
    show p ∈ _
    rw [hfin]
    exact hp

example : VCareful votesCfg votesDemo (votesEvs ++ votesAsk) ∧
    Lockup.pollArgs.transfers = .disabled votesCfg.poll ∧
    (vrun votesCfg votesDemo (votesEvs ++ votesAsk)).sys.lk.c.info.transfers = .enabled 1003 ∧
    ¬ Voting.Counted votesDemo.sys.poll.c "pool" ∧ ¬ Voting.Counted votesDemo.sys.poll.c "pool2" :=
  ⟨votesEvs_careful, rfl, by decide +kernel, by unfold Voting.Counted; decide +kernel,
    by unfold Voting.Counted; decide +kernel⟩

end Verif.System
