import Verif.System.Sim
import Verif.System.Demo
import Verif.Lockup.Props4

/-!
# Properties of the whole system (C86-C88)

The lockup with the staking pools, the whitelist and the poll of /repo instead of arbitrary answers.
-/

namespace Verif.System

open Verif

/-! ## C86 -/

/-- What the pool on account `p` reports as the total balance of the lockup. -/
def reported (cfg : Cfg) (s : Sys) (p : AccountId) : Nat :=
  match s.pools.get p with
  | none => 0
  | some w =>
    match StakingPool.getAccountUnstakedBalance w.epoch w.pool cfg.lockup,
      StakingPool.getAccountStakedBalance w.epoch w.pool cfg.lockup with
    | .ok u, .ok x => u + x
    | _, _ => 0

theorem atPools_eq (cfg : Cfg) (s : Sys) :
    atPools cfg all s = (s.pools.keys.map (reported cfg s)).sum := by
  unfold atPools UMap.sum UMap.keys
  rw [List.map_map]
  congr 1
  apply List.map_congr_left
  rintro ⟨p, w⟩ hp
  simp only [Function.comp, reported]
  rw [UMap.get_eq_some.mpr hp]
  rfl

/-- **C86.** In every history of the lockup with the real staking pools, the tokens on the account, on
their way to it, in flight to a pool, and reported by the views of the deployed pools together cover
the locked amount. No assumption about the behaviour of pools is left. -/
theorem C86_locked_tokens_covered {cfg : Cfg} {a : Lockup.NewArgs} {s : Sys}
    (h : Reachable cfg a s) (hv : Lockup.VestingOk cfg.lk (Lockup.argVesting a))
    (hn : (∀ b, a.vesting ≠ some (.hash b)) ∨ s.lk.fixedUnvested = none) (e : Lockup.Env)
    (he : e.now = s.lk.now) :
    ∃ l, Lockup.getLockedAmount e s.lk.c = .ok l ∧
      l ≤ s.lk.bal + s.lk.incoming + (s.pools.keys.map (reported cfg s)).sum +
        Lockup.inFlight s.lk := by
  have hi := reachable_inv h
  obtain ⟨l, h1, h2⟩ := Lockup.C24_locked_tokens_covered hi.reachable rfl hv hn e he
  refine ⟨l, h1, ?_⟩
  have hloss : (abs cfg all s).loss = 0 := by
    obtain ⟨w0, evs, g1, g2, g3⟩ := hi.ref
    rw [g3]
    have hl : ∀ (l : List Lockup.Ev) (w : Lockup.World), (∀ ev ∈ l, ev.lossFree) →
        (Lockup.run cfg.lk w l).loss = w.loss := by
      intro l
      induction l with
      | nil => intro w _; rfl
      | cons ev t ih =>
        intro w hl
        have := ih (Lockup.step cfg.lk w ev) (fun x hx => hl x (by simp [hx]))
        exact this.trans (Lockup.loss_step (hl ev (by simp)))
    rw [hl evs w0 g2]
    obtain ⟨_, _, _, _, _, _, rfl⟩ := g1
    rfl
  rw [hloss] at h2
  have h3 : (abs cfg all s).held = (s.pools.keys.map (reported cfg s)).sum := atPools_eq cfg s
  rw [h3] at h2
  exact h2

example : Lockup.getLockedAmount (Lockup.mkEnv demoCfg.lk demo.lk "x" 0 none) demo.lk.c =
    .ok Lockup.tenNear := by decide +kernel

example : demo.lk.bal = 5 * 10 ^ 24 ∧ (demo.pools.keys.map (reported demoCfg demo)).sum =
    5001000000000000022222222 := by decide +kernel

/-! ## C87 -/

theorem run_cause {cfg : Cfg} (P : Sys → Prop) {s : Sys} (evs : List Ev) (h0 : ¬ P s)
    (h1 : P (run cfg s evs)) : ∃ l1 ev l2, evs = l1 ++ ev :: l2 ∧ ¬ P (run cfg s l1) ∧
      P (step cfg (run cfg s l1) ev) := by
  induction evs generalizing s with
  | nil => exact absurd h1 h0
  | cons e t ih =>
    by_cases hp : P (step cfg s e)
    · exact ⟨[], e, t, rfl, h0, hp⟩
    · obtain ⟨l1, ev, l2, h2, h3, h4⟩ := ih hp h1
      exact ⟨e :: l1, ev, l2, by rw [h2]; rfl, h3, h4⟩

theorem step_pool_lk (cfg : Cfg) (s : Sys) (q : AccountId) (ev : StakingPool.Ev) :
    (step cfg s (.pool q ev)).lk = s.lk := by
  cases hw : s.pools.get q with
  | none => simp only [step, hw]
  | some w =>
    cases ev with
    | call who att c => simp only [step, hw]; split <;> rfl
    | _ => simp only [step, hw]

theorem step_create_lk (cfg : Cfg) (s : Sys) (p deployer owner : AccountId) (key : PublicKey)
    (fee : StakingPool.Fee) (balance epoch : Nat) :
    (step cfg s (.create p deployer owner key fee balance epoch)).lk = s.lk := by
  simp only [step, create]
  (repeat' split) <;> rfl

/-- Where an approval of the whitelist comes from. -/
theorem approved_step {cfg : Cfg} {a : Lockup.NewArgs} {s : Sys} (h : Inv cfg a s) {ev : Ev}
    {p : AccountId} (hp : p ∈ (step cfg s ev).lk.approved) (hn : p ∉ s.lk.approved) :
    ∃ i r cb, ev = .execute i true r ∧
      s.lk.pend[i]? = some ⟨.isWhitelisted cfg.whitelist p, cb, .sent⟩ ∧ Listed s p := by
  have hlk : ∀ e : Lockup.Ev, ((∃ who att c, e = .call who att c) ∨ (∃ i, e = .callback i) ∨
      (∃ x, e = .arrive x) ∨ (∃ x, e = .income x)) →
      p ∉ (Lockup.step cfg.lk s.lk e).approved := by
    intro e he
    rw [(step_now_approved cfg.lk s.lk he).2.1]; exact hn
  cases ev with
  | call who att c => exact absurd hp (hlk _ (.inl ⟨_, _, _, rfl⟩))
  | callback i => exact absurd hp (hlk _ (.inr (.inl ⟨_, rfl⟩)))
  | arrive x => exact absurd hp (hlk _ (.inr (.inr (.inl ⟨_, rfl⟩))))
  | income x => exact absurd hp (hlk _ (.inr (.inr (.inr ⟨_, rfl⟩))))
  | execute i ok r =>
    simp only [step, execute] at hp
    split at hp
    · rename_i ext cb hi
      have hp' : p ∈ (runExt cfg s ⟨ext, cb, .sent⟩ ok r).2.lk.approved := by
        revert hp; cases cb <;> exact id
      clear hp
      have hans : ∀ r', p ∈ (answered cfg s ⟨ext, cb, .sent⟩ r').2.lk.approved →
          ext = .isWhitelisted s.lk.c.whitelist p ∧ r' = .bool true := by
        intro r' hm
        rcases (Lockup.runExt_approved (cfg := cfg.lk) (w := s.lk) p).mp hm with h1 | ⟨h1, h2, _⟩
        · exact absurd h1 hn
        · exact ⟨h1, h2⟩
      unfold runExt at hp'
      split at hp'
      · exact absurd (hans _ hp').2 (by simp)
      rename_i hok
      have hok' : ok = true := by cases ok <;> simp_all
      have hq := Lockup.mem_of_getElem?' hi
      simp only at hp'
      cases hc : callOf ext with
      | some x =>
        obtain ⟨q, att, c⟩ := x
        rw [hc] at hp'
        obtain ⟨w, hw⟩ := h.target hq (callOf_pool hc)
        simp only [hw, callPool] at hp'
        split at hp' <;> exact absurd hp' hn
      | none =>
        rw [hc] at hp'
        cases hv : viewOf ext with
        | some x =>
          obtain ⟨q, view⟩ := x
          rw [hv] at hp'
          obtain ⟨w, hw⟩ := h.target hq (viewOf_pool hv)
          simp only [hw] at hp'
          exact absurd hp' hn
        | none =>
          rw [hv] at hp'
          simp only at hp'
          split at hp'
          · obtain ⟨h1, h2⟩ := hans _ hp'
            rw [h.wl] at h1
            simp only [Lockup.Ext.isWhitelisted.injEq] at h1
            obtain ⟨rfl, rfl⟩ := h1
            refine ⟨i, r, cb, by rw [hok'], hi, ?_⟩
            rw [if_pos rfl] at h2
            unfold askWhitelist Whitelist.isWhitelisted at h2
            split at h2
            · rename_i b hb
              simp only [bind_ok, pure_ok] at hb
              obtain ⟨_, _, hb⟩ := hb
              cases h2
              exact hb
            · cases h2
          · have := (hans _ hp').1
            simp at this
          · rename_i hn1 _
            exact absurd (hans _ hp').1 (hn1 _ _)
    · exact absurd hp hn
  | pool q ev => rw [step_pool_lk] at hp; exact absurd hp hn
  | create q deployer owner key fee balance epoch =>
    rw [step_create_lk] at hp; exact absurd hp hn
  | whitelist ev => exact absurd hp hn
  | vote who att c => exact absurd hp hn
  | voteEpochs k => exact absurd hp hn
  | tick dt => exact absurd hp hn

theorem queried_step {cfg : Cfg} {a : Lockup.NewArgs} {s : Sys} (h : Inv cfg a s) {ev : Ev}
    {p : AccountId} (hp : p ∈ (step cfg s ev).lk.queried) (hn : p ∉ s.lk.queried) :
    ev = .call s.lk.c.owner 0 (.owner (.selectStakingPool p)) := by
  have hlk : ∀ e : Lockup.Ev, p ∈ (Lockup.step cfg.lk s.lk e).queried →
      e = .call s.lk.c.owner 0 (.owner (.selectStakingPool p)) := by
    intro e he
    rcases Lockup.queried_step he with h1 | h1
    · exact absurd h1 hn
    · exact h1
  cases ev with
  | call who att c =>
    have := hlk _ hp
    simp only [Lockup.Ev.call.injEq] at this
    obtain ⟨rfl, rfl, rfl⟩ := this
    rfl
  | callback i => have := hlk _ hp; cases this
  | arrive x => have := hlk _ hp; cases this
  | income x => have := hlk _ hp; cases this
  | tick x => have := hlk _ hp; cases this
  | execute i ok r =>
    simp only [step, execute] at hp
    split at hp
    · rename_i ext cb hi
      have hf := runExt_facts h (Lockup.mem_of_getElem?' hi) ok r
      have hp' : p ∈ (runExt cfg s ⟨ext, cb, .sent⟩ ok r).2.lk.queried := by
        revert hp; cases cb <;> exact id
      rw [hf.queried] at hp'
      exact absurd hp' hn
    · exact absurd hp hn
  | pool q ev => rw [step_pool_lk] at hp; exact absurd hp hn
  | create q deployer owner key fee balance epoch =>
    rw [step_create_lk] at hp; exact absurd hp hn
  | whitelist ev => exact absurd hp hn
  | vote who att c => exact absurd hp hn
  | voteEpochs k => exact absurd hp hn

theorem owner_const {cfg : Cfg} {a : Lockup.NewArgs} {s : Sys} (h : Inv cfg a s) :
    s.lk.c.owner = a.owner := by
  obtain ⟨w0, evs, h1, _, h2⟩ := h.ref
  have h3 := (Lockup.const_run (cfg := cfg.lk) (w := w0) evs).1
  rw [← h2] at h3
  have h4 : (abs cfg all s).c.owner = s.lk.c.owner := rfl
  rw [← h4, h3]
  obtain ⟨_, _, _, _, _, hx, rfl⟩ := h1
  exact (Lockup.new_ok hx).1

/-- **C87.** In every history with only real pools on the whitelist: when a pool is selected, the owner
asked for this very pool and, when the question reached the whitelist contract, the pool was listed
there. The pool runs the staking pool contract in a reachable state, and every receipt the lockup has
sent to a pool goes to it. -/
theorem C87_selected_pool_is_a_listed_pool {cfg : Cfg} {a : Lockup.NewArgs} {s0 : Sys}
    {evs : List Ev} {si : Lockup.StakingInfo} (h : Started cfg a s0) (hc : Careful cfg s0 evs)
    (hsel : (run cfg s0 evs).lk.c.staking = some si) :
    (∃ l1 l2 l3 i r cb,
      evs = l1 ++ .call a.owner 0 (.owner (.selectStakingPool si.pool)) :: l2 ++
        .execute i true r :: l3 ∧
      (run cfg s0 (l1 ++ .call a.owner 0 (.owner (.selectStakingPool si.pool)) :: l2)).lk.pend[i]? =
        some ⟨.isWhitelisted cfg.whitelist si.pool, cb, .sent⟩ ∧
      Listed (run cfg s0 (l1 ++ .call a.owner 0 (.owner (.selectStakingPool si.pool)) :: l2))
        si.pool) ∧
    (∃ w, (run cfg s0 evs).pools.get si.pool = some w ∧
      StakingPool.Reachable (cfg.pool si.pool) w) ∧
    ∀ q ∈ (run cfg s0 evs).lk.pend, ∀ p, q.ext.pool? = some p → p = si.pool := by
  have h0 := started_inv h
  have hinv := (inv_run h0 hc).1
  have happ : si.pool ∈ (run cfg s0 evs).lk.approved :=
    (Lockup.reachable_selInv hinv.reachable).sel si hsel
  refine ⟨?_, ?_, ?_⟩
  · have hemp : s0.lk.approved = [] ∧ s0.lk.queried = [] := by
      obtain ⟨d, b, n, c, hb, hx, hw⟩ := h.lk
      rw [hw]; exact ⟨rfl, rfl⟩
    obtain ⟨m1, ev, l3, rfl, hn1, hp1⟩ := run_cause (fun s => si.pool ∈ s.lk.approved) evs
      (by simp only [hemp.1, List.not_mem_nil, not_false_eq_true]) happ
    obtain ⟨hc1, hc2⟩ := careful_append.mp hc
    have hi1 := (inv_run h0 hc1).1
    obtain ⟨i, r, cb, rfl, hpend, hlist⟩ := approved_step hi1 hp1 hn1
    have hq : si.pool ∈ (run cfg s0 m1).lk.queried :=
      (Lockup.reachable_selInv hi1.reachable).qry _ (Lockup.mem_of_getElem?' hpend) _ _ rfl
    obtain ⟨l1, ev, l2, rfl, hn2, hp2⟩ := run_cause (fun s => si.pool ∈ s.lk.queried) m1
      (by simp only [hemp.2, List.not_mem_nil, not_false_eq_true]) hq
    have hi2 := (inv_run h0 (careful_append.mp hc1).1).1
    have hev := queried_step hi2 hp2 hn2
    rw [owner_const hi2] at hev
    subst hev
    exact ⟨l1, l2, l3, i, r, cb, by simp, hpend, hlist⟩
  · obtain ⟨w, hw⟩ := contains_get.mp (hinv.approved _ happ)
    exact ⟨w, hw, (hinv.pools _ w hw).2⟩
  · intro q hq p hp
    obtain ⟨si', h1, h2⟩ := Lockup.reachable_target hinv.reachable q hq p hp
    have h3 : (run cfg s0 evs).lk.c.staking = some si' := h1
    rw [hsel] at h3
    cases h3
    exact h2.symm

example : demo.lk.c.staking = some ⟨"pool", false, 5 * 10 ^ 24⟩ := by decide +kernel

/-! ## C88 -/

/-- **C88.** A lockup that waits for the modelled poll has transfers enabled with timestamp `t` only if
the poll was decided at time `t`, not later than now, by one successful call after which the accounts
voting yes held more than two thirds of the stake of that epoch. -/
theorem C88_transfers_enabled_by_two_thirds {cfg : Cfg} {a : Lockup.NewArgs} {s : Sys} {t : Nat}
    (h : Reachable cfg a s) (ha : a.transfers = .disabled cfg.poll)
    (ht : s.lk.c.info.transfers = .enabled t) :
    Voting.getResult s.poll.c = some t ∧ t ≤ s.lk.now ∧
    ∃ w0 l1 who c l2 s', Voting.Started w0 ∧
      s.poll = Voting.run cfg.voting w0 (l1 ++ .call who 0 c :: l2) ∧
      Voting.Calls cfg.voting (Voting.run cfg.voting w0 l1) who 0 c s' ∧
      t = (Voting.run cfg.voting w0 l1).now ∧
      3 * Voting.yesStake cfg.voting (Voting.run cfg.voting w0 l1).epoch s' >
        2 * Voting.totalAt cfg.voting (Voting.run cfg.voting w0 l1).epoch := by
  have hi := reachable_inv h
  have hres : Voting.getResult s.poll.c = some t := by
    apply hi.answers
    obtain ⟨w0, evs, h1, _, h2⟩ := hi.ref
    have hinv := Lockup.pollInv_run (cfg := cfg.lk) evs (Lockup.started_sinv h1)
      (Lockup.started_pollInv h1)
    rw [ha, ← h2] at hinv
    rcases hinv.tr with h3 | ⟨p, t', h3, h4, h5⟩
    · have h6 : s.lk.c.info.transfers = .disabled cfg.poll := h3
      rw [ht] at h6; cases h6
    · have h6 : s.lk.c.info.transfers = .enabled t' := h5
      rw [ht] at h6; cases h6; cases h3; exact h4
  obtain ⟨w0, evs, h1, h2⟩ := hi.poll
  rw [h2] at hres
  obtain ⟨l1, who, c, l2, s', h3, h4, _, _, h5, h6⟩ := Voting.C35_result_has_a_deciding_call h1 hres
  refine ⟨by rw [h2]; exact hres, ?_, w0, l1, who, c, l2, s', h1, by rw [h2, h3], h4, h5, h6⟩
  have hmono : ∀ (l : List Voting.Ev) (w : Voting.World), w.now ≤ (Voting.run cfg.voting w l).now := by
    intro l
    induction l with
    | nil => intro w; exact Nat.le_refl _
    | cons ev t ih =>
      intro w
      refine Nat.le_trans ?_ (ih (Voting.step cfg.voting w ev))
      cases ev with
      | call who att c => simp only [Voting.step]; split <;> exact Nat.le_refl _
      | tick x => exact Nat.le_add_right _ _
      | epochs x => exact Nat.le_refl _
  rw [← hi.now, h2, h3, h5]
  have : Voting.run cfg.voting w0 (l1 ++ .call who 0 c :: l2) =
      Voting.run cfg.voting (Voting.run cfg.voting w0 l1) (.call who 0 c :: l2) := by
    simp [Voting.run]
  rw [this]
  exact hmono _ _

example : Reachable demoCfg Lockup.pollArgs (run demoCfg demo demoVote) ∧
    Lockup.pollArgs.transfers = .disabled demoCfg.poll ∧
    (run demoCfg demo demoVote).lk.c.info.transfers = .enabled 1003 :=
  ⟨demo_reachable.run (careful_of_bool (by decide +kernel)), rfl, by decide +kernel⟩

end Verif.System
