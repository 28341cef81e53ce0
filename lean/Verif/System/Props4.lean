import Verif.System.JointSim
import Verif.System.Props
import Verif.System.Props2
import Verif.System.Demo

/-!
# System property C100: the lockup with the real pools, whitelist and staking pool factory
-/

namespace Verif.System

open Verif Verif.Factory

/-! ## Helper lemmas -/

theorem jrun_append (cfg : JCfg) (j : Joint) (l1 l2 : List JEv) :
    jrun cfg j (l1 ++ l2) = jrun cfg (jrun cfg j l1) l2 := by
  induction l1 generalizing j with
  | nil => rfl
  | cons ev t ih => exact ih _

theorem jcareful_append {cfg : JCfg} {j : Joint} {l1 l2 : List JEv} :
    JCareful cfg j (l1 ++ l2) ↔ JCareful cfg j l1 ∧ JCareful cfg (jrun cfg j l1) l2 := by
  induction l1 generalizing j with
  | nil => simp [JCareful, jrun]
  | cons ev t ih => simp only [List.cons_append, JCareful, ih, jrun, and_assoc]

theorem sysEvs_short (cfg : JCfg) (j : Joint) (ev : JEv) : (sysEvs cfg j ev).length ≤ 1 := by
  cases ev with
  | sys ev =>
    cases ev with
    | whitelist e => simp only [sysEvs]; split <;> simp
    | create p deployer owner key fee balance epoch => simp only [sysEvs]; split <;> simp
    | _ => simp [sysEvs]
  | fac ev =>
    cases ev with
    | deliver i ok =>
      simp only [sysEvs]
      split
      · split <;> simp
      · split <;> simp
      · simp
    | _ => simp [sysEvs]

/-- Every moment of the history of the system is a moment of the joint history. -/
theorem sysHist_prefix {cfg : JCfg} {a : Lockup.NewArgs} {j : Joint} (hj : JInv cfg a j)
    {evs : List JEv} (hc : JCareful cfg j evs) {l1 l2 : List Ev}
    (h : sysHist cfg j evs = l1 ++ l2) :
    ∃ e1 e2, evs = e1 ++ e2 ∧ (jrun cfg j e1).sys = run cfg.sys j.sys l1 := by
  induction evs generalizing j l1 with
  | nil =>
    simp only [sysHist] at h
    obtain ⟨rfl, rfl⟩ := List.append_eq_nil_iff.mp h.symm
    exact ⟨[], [], rfl, rfl⟩
  | cons ev t ih =>
    cases l1 with
    | nil => exact ⟨[], ev :: t, rfl, rfl⟩
    | cons x l1 =>
      simp only [sysHist] at h
      have hj' := jinv_step hj ev hc.1
      have hs := jstep_sys hj ev
      match hl : sysEvs cfg j ev, sysEvs_short cfg j ev with
      | [], _ =>
        rw [hl] at h hs
        obtain ⟨e1, e2, rfl, he⟩ := ih hj' hc.2 h
        refine ⟨ev :: e1, e2, rfl, ?_⟩
        simp only [jrun]
        rw [he, hs]; rfl
      | [y], _ =>
        rw [hl] at h hs
        simp only [List.cons_append, List.nil_append, List.cons.injEq] at h
        obtain ⟨rfl, h⟩ := h
        obtain ⟨e1, e2, rfl, he⟩ := ih hj' hc.2 h
        refine ⟨ev :: e1, e2, rfl, ?_⟩
        simp only [jrun]
        rw [he, hs]; rfl
      | _ :: _ :: _, hlen => simp at hlen

theorem accounts_jstep {cfg : JCfg} {a : Lockup.NewArgs} {j : Joint} (hj : JInv cfg a j) (ev : JEv)
    {p : AccountId} {acc : PoolFactory.Created} (h : j.fac.accounts.get p = some acc) :
    (jstep cfg j ev).fac.accounts.get p = some acc := by
  have e : (jstep cfg j ev).fac.accounts = (jstep cfg j ev).world.accounts := rfl
  rw [e, jstep_world hj ev]
  exact PoolFactory.accounts_run _ _ _ _ _ h

/-- What gets listed in one event, if only the factory lists. -/
theorem listed_jstep {cfg : JCfg} {a : Lockup.NewArgs} {j : Joint} (hj : JInv cfg a j) {ev : JEv}
    (hn : ∀ who att p r, ev = .sys (.whitelist ⟨who, att, .addPool p⟩) → who ≠ cfg.factory →
      Whitelist.exec (Whitelist.mkEnv cfg.sys.validAccountId who att) j.sys.wl (.addPool p) ≠ .ok r)
    {p : AccountId} (h : Listed (jstep cfg j ev).sys p) :
    Listed j.sys p ∨ ∃ acc, j.fac.accounts.get p = some acc := by
  have wcase : ∀ wev : Whitelist.Ev,
      (Whitelist.step cfg.sys.validAccountId j.sys.wl wev).whitelist.contains p = true →
      Listed j.sys p ∨ ∃ r, wev.call = .addPool p ∧
        Whitelist.exec (Whitelist.mkEnv cfg.sys.validAccountId wev.who wev.attached) j.sys.wl
          (.addPool p) = .ok r := by
    rintro ⟨who, att, c⟩ hc
    rcases Whitelist.step_cases cfg.sys.validAccountId j.sys.wl ⟨who, att, c⟩ with ⟨b, hx⟩ | ⟨_, hx⟩
    · have hx2 := hx
      have hx' := Whitelist.exec_ok.mp hx
      unfold Whitelist.Calls at hx2
      generalize Whitelist.step cfg.sys.validAccountId j.sys.wl ⟨who, att, c⟩ = s' at hx' hc hx2
      obtain ⟨h0, hx'⟩ := hx'
      cases c with
      | addPool q =>
        obtain ⟨_, _, rfl, _⟩ := hx'
        obtain ⟨v, hv⟩ := contains_get.mp hc
        simp only [UMap.get_insert] at hv
        split at hv
        · rename_i e; subst e; exact .inr ⟨_, rfl, hx2⟩
        · exact .inl (contains_get.mpr ⟨v, hv⟩)
      | removePool q =>
        obtain ⟨_, _, rfl, _⟩ := hx'
        obtain ⟨v, hv⟩ := contains_get.mp hc
        simp only [UMap.get_remove] at hv
        split at hv
        · cases hv
        · exact .inl (contains_get.mpr ⟨v, hv⟩)
      | addFactory g => obtain ⟨_, _, rfl, _⟩ := hx'; exact .inl hc
      | removeFactory g => obtain ⟨_, _, rfl, _⟩ := hx'; exact .inl hc
    · rw [hx] at hc; exact .inl hc
  unfold Listed at h
  cases ev with
  | sys ev =>
    cases ev with
    | whitelist wev =>
      simp only [jstep] at h
      split at h
      · exact .inl h
      · rename_i hne
        rcases wcase wev h with h1 | ⟨r, h1, h2⟩
        · exact .inl h1
        · obtain ⟨who, att, c⟩ := wev
          cases h1
          exact absurd h2 (hn _ _ _ _ rfl hne)
    | create q deployer owner key fee balance epoch =>
      simp only [jstep] at h
      split at h
      · exact .inl h
      · rw [step_wl hj.ne _ (by simp)] at h; exact .inl h
    | _ =>
      simp only [jstep] at h
      rw [step_wl hj.ne _ (by simp)] at h; exact .inl h
  | fac ev =>
    have key : ∀ ev, (∀ e, ev ≠ PoolFactory.Ev.whitelistCall e) →
        (facStep cfg j ev).sys.wl.whitelist.contains p = true →
        Listed j.sys p ∨ ∃ acc, j.fac.accounts.get p = some acc := by
      intro ev hev h
      have hw : (facStep cfg j ev).sys.wl = (PoolFactory.step cfg.fac j.world ev).wl := rfl
      rw [hw] at h
      rcases fac_wl (cfg := cfg) (j := j) hev with h1 | ⟨i, ok, id, _, hr, h1⟩
      · rw [h1] at h; exact .inl h
      · rw [h1] at h
        rcases wcase _ h with h2 | ⟨_, h2, _⟩
        · exact .inl h2
        · cases h2
          obtain ⟨base, hf⟩ := hj.fac
          obtain ⟨_, hacc⟩ := hf.receipts _ (List.mem_of_getElem? hr)
          exact .inr (contains_get.mp hacc)
    cases ev with
    | whitelistCall e => exact .inl h
    | _ => exact key _ (by simp) h

theorem trusts_append {cfg : JCfg} {f : AccountId} {l1 l2 : List JEv}
    (h : FoundationTrusts cfg f (l1 ++ l2)) : FoundationTrusts cfg f l1 ∧ FoundationTrusts cfg f l2 :=
  ⟨⟨fun att p hm => h.1 att p (List.mem_append_left _ hm),
      fun att g hm => h.2 att g (List.mem_append_left _ hm)⟩,
    ⟨fun att p hm => h.1 att p (List.mem_append_right _ hm),
      fun att g hm => h.2 att g (List.mem_append_right _ hm)⟩⟩

/-- Listed pools come from the beginning or from the factory. -/
theorem listed_jrun {cfg : JCfg} {a : Lockup.NewArgs} {j : Joint} (hj : JInv cfg a j)
    {evs : List JEv} (ht : FoundationTrusts cfg j.sys.wl.foundation evs)
    (he : ∀ f, j.sys.wl.factoryWhitelist.contains f = true → f = cfg.factory) {p : AccountId}
    (h : Listed (jrun cfg j evs).sys p) :
    Listed j.sys p ∨ ∃ acc, (jrun cfg j evs).fac.accounts.get p = some acc := by
  induction evs generalizing j with
  | nil => exact .inl h
  | cons ev t ih =>
    have hc := trusts_careful hj ht he
    have hj' := jinv_step hj ev hc.1
    have ht' : FoundationTrusts cfg (jstep cfg j ev).sys.wl.foundation t := by
      rw [wl_foundation hj]; exact (trusts_append (l1 := [ev]) ht).2
    have he' := entitled_step hj he (fun att f he => ht.2 att f (he ▸ List.mem_cons_self ..))
    rcases ih hj' ht' he' h with h1 | h1
    · rcases listed_jstep hj (nobody_lists rfl he ht (List.mem_cons_self ..)) h1 with h2 | ⟨acc, h2⟩
      · exact .inl h2
      · right
        have e : (jrun cfg j (ev :: t)).fac.accounts = (jrun cfg (jstep cfg j ev) t).world.accounts := rfl
        rw [e, (jrun_all hj' hc.2).2.1]
        exact ⟨acc, PoolFactory.accounts_run _ _ _ _ _ (accounts_jstep hj ev h2)⟩
    · exact .inr h1

/-- A pool of the factory, at any later moment. -/
theorem created_pool {cfg : JCfg} {a : Lockup.NewArgs} {j : Joint} (hj : JInv cfg a j)
    {w0 : PoolFactory.World} {fevs : List PoolFactory.Ev} (hs : PoolFactory.Started cfg.fac w0)
    (hw : j.world = PoolFactory.run cfg.fac w0 fevs) {p : AccountId} {acc : PoolFactory.Created}
    (hp : j.fac.accounts.get p = some acc) :
    ∃ who att name owner key fee w, PoolFactory.Asked cfg.fac w0 fevs who att name owner key fee ∧
      p = subAccount name cfg.factory ∧ PoolFactory.getMinAttachedBalance ≤ att ∧
      j.sys.pools.get p = some w ∧ StakingPool.Reachable (cfg.sys.pool p) w ∧
      StakingPool.getOwnerId w.pool = owner := by
  have hp' : (PoolFactory.run cfg.fac w0 fevs).accounts.get p = some acc := by rw [← hw]; exact hp
  obtain ⟨who, att, name, owner, key, fee, h1, h2, h3, h4, h5, h6, h7⟩ :=
    PoolFactory.C52_created_as_asked hs fevs hp'
  obtain ⟨_, _, _, h8, h9⟩ := PoolFactory.C52_created_accounts hs fevs hp'
  obtain ⟨evs, he⟩ := hj.created p acc hp
  obtain ⟨s0, hi⟩ := StakingPool.reachable_inv ⟨acc.pool, [], h8, rfl⟩
  refine ⟨who, att, name, owner, key, fee, _, h1, h3, by rw [← h4]; exact h9, he,
    (hj.sys.pools p _ he).2, ?_⟩
  rw [← h5]
  exact StakingPool.run_owner hi evs

/-- In the joint history `evs`, `who` called `create_staking_pool` with deposit `att` and the call was
accepted. -/
def JAsked (cfg : JCfg) (j0 : Joint) (evs : List JEv) (who : AccountId) (att : Nat)
    (name owner : AccountId) (key : PublicKey) (fee : StakingPool.Fee) : Prop :=
  ∃ l1 l2, evs = l1 ++ .fac (.create who att name owner key fee) :: l2 ∧
    ∃ r, PoolFactory.createStakingPool (PoolFactory.mkEnv cfg.fac (jrun cfg j0 l1).world who att [])
      (jrun cfg j0 l1).fac.c name owner key fee = .ok r

theorem facHist_create {evs : List JEv} {a l2 : List PoolFactory.Ev} {who : AccountId} {att : Nat}
    {name owner : AccountId} {key : PublicKey} {fee : StakingPool.Fee}
    (h : facHist evs = a ++ .create who att name owner key fee :: l2) :
    ∃ e1 e2, evs = e1 ++ .fac (.create who att name owner key fee) :: e2 ∧ facHist e1 = a := by
  induction evs generalizing a with
  | nil => simp [facHist] at h
  | cons ev t ih =>
    simp only [facHist] at h
    have next : ∀ {b}, facHist t = b ++ .create who att name owner key fee :: l2 → facEvs ev ++ b = a →
        ∃ e1 e2, ev :: t = e1 ++ .fac (.create who att name owner key fee) :: e2 ∧ facHist e1 = a := by
      intro b hb he
      obtain ⟨e1, e2, rfl, h2⟩ := ih hb
      exact ⟨ev :: e1, e2, rfl, by simp only [facHist]; rw [h2, he]⟩
    rcases List.append_eq_append_iff.mp h with ⟨b, h1, h2⟩ | ⟨b, h1, h2⟩
    · exact next h2 h1.symm
    · cases b with
      | nil => exact next (b := []) (by simpa using h2.symm) (by simpa using h1)
      | cons x b =>
        simp only [List.cons_append, List.cons.injEq] at h2
        obtain ⟨rfl, -⟩ := h2
        have hev : ev = .fac (.create who att name owner key fee) ∧ a = [] := by
          cases ev with
          | sys ev =>
            have := congrArg List.length h1
            cases ev <;> simp [facEvs] at h1
            obtain ⟨_, h1⟩ : a = [] ∧ _ := by
              cases a with
              | nil => exact ⟨rfl, h1⟩
              | cons y a => simp at h1
            simp at h1
          | fac ev =>
            cases ev <;> simp [facEvs] at h1
            all_goals
              cases a with
              | nil => simp at h1; try (obtain ⟨⟨rfl, rfl, rfl, rfl, rfl, rfl⟩, _⟩ := h1; exact ⟨rfl, rfl⟩)
              | cons y a => simp at h1
        obtain ⟨rfl, rfl⟩ := hev
        exact ⟨[], t, rfl, rfl⟩

theorem asked_split {cfg : JCfg} {a : Lockup.NewArgs} {j0 : Joint} {evs : List JEv}
    (hj : JInv cfg a j0) (hc : JCareful cfg j0 evs) {w0 : PoolFactory.World}
    {fevs : List PoolFactory.Ev} (h0 : j0.world = PoolFactory.run cfg.fac w0 fevs) {who : AccountId}
    {att : Nat} {name owner : AccountId} {key : PublicKey} {fee : StakingPool.Fee}
    (h : PoolFactory.Asked cfg.fac w0 (fevs ++ facHist evs) who att name owner key fee) :
    PoolFactory.Asked cfg.fac w0 fevs who att name owner key fee ∨
      JAsked cfg j0 evs who att name owner key fee := by
  obtain ⟨l1, l2, hl, r, hr⟩ := h
  have later : ∀ {b}, l1 = fevs ++ b → facHist evs = b ++ .create who att name owner key fee :: l2 →
      JAsked cfg j0 evs who att name owner key fee := by
    rintro b rfl hb
    obtain ⟨e1, e2, rfl, rfl⟩ := facHist_create hb
    obtain ⟨_, hw, _, _⟩ := jrun_all hj (jcareful_append.mp hc).1
    rw [h0, ← fac_run_append] at hw
    rw [← hw] at hr
    exact ⟨e1, e2, rfl, r, hr⟩
  rcases List.append_eq_append_iff.mp hl with ⟨b, h1, h2⟩ | ⟨b, h1, h2⟩
  · exact .inr (later h1 h2)
  · cases b with
    | nil => exact .inr (later (b := []) (by simpa using h1.symm) (by simpa using h2.symm))
    | cons x b =>
      simp only [List.cons_append, List.cons.injEq] at h2
      obtain ⟨rfl, -⟩ := h2
      exact .inl ⟨l1, b, h1, r, hr⟩

/-! ## C100 -/

/-- **C100.** The factory never breaks the assumption about the whitelist: if everybody else lists only
accounts that run the staking pool contract, the system is in a reachable state, so C86 to C93 hold of
the lockup without any assumption about the factory. -/
theorem C100_factory_is_careful {cfg : JCfg} {a : Lockup.NewArgs} {j0 : Joint} {evs : List JEv}
    (h : JStarted cfg a j0) (hc : JCareful cfg j0 evs) :
    Reachable cfg.sys a (jrun cfg j0 evs).sys := by
  obtain ⟨_, _, h3, h4⟩ := jrun_all (jinv_start h) hc
  exact ⟨j0.sys, _, h.sys, h4, h3⟩

/-- **C100.** If the foundation only admits this factory and lists no pools itself, every listed account
was listed when the lockup was created, or it is a staking pool that the factory created because
somebody asked for it, before or after that, with at least the minimum deposit; and it still has the
owner that was asked for. -/
theorem C100_listed_pools_were_asked_for {cfg : JCfg} {a : Lockup.NewArgs} {j0 : Joint}
    {evs : List JEv} (h : JStarted cfg a j0) {w0 : PoolFactory.World} {fevs : List PoolFactory.Ev}
    (hs : PoolFactory.Started cfg.fac w0) (h0 : j0.world = PoolFactory.run cfg.fac w0 fevs)
    (he : ∀ f, j0.sys.wl.factoryWhitelist.contains f = true → f = cfg.factory)
    (ht : FoundationTrusts cfg j0.sys.wl.foundation evs) {p : AccountId}
    (hp : Listed (jrun cfg j0 evs).sys p) :
    Listed j0.sys p ∨ ∃ who att name owner key fee w,
      (PoolFactory.Asked cfg.fac w0 fevs who att name owner key fee ∨
        JAsked cfg j0 evs who att name owner key fee) ∧
      p = subAccount name cfg.factory ∧ PoolFactory.getMinAttachedBalance ≤ att ∧
      (jrun cfg j0 evs).sys.pools.get p = some w ∧ StakingPool.Reachable (cfg.sys.pool p) w ∧
      StakingPool.getOwnerId w.pool = owner := by
  have hj := jinv_start h
  obtain ⟨hj', hw, _, _⟩ := jrun_all hj (trusts_careful hj ht he)
  rcases listed_jrun hj ht he hp with h1 | ⟨acc, h1⟩
  · exact .inl h1
  · rw [h0, ← fac_run_append] at hw
    obtain ⟨who, att, name, owner, key, fee, w, h2, h3⟩ := created_pool hj' hs hw h1
    exact .inr ⟨who, att, name, owner, key, fee, w,
      asked_split hj (trusts_careful hj ht he) h0 h2, h3⟩

/-- **C100.** Under the same conditions the pool a lockup has selected was listed when the lockup was
created, or the factory created it because somebody asked for it; it runs the staking pool contract, has
the owner that was asked for, and receives every receipt the lockup has sent to a pool. -/
theorem C100_selected_pool_was_asked_for {cfg : JCfg} {a : Lockup.NewArgs} {j0 : Joint}
    {evs : List JEv} (h : JStarted cfg a j0) {w0 : PoolFactory.World} {fevs : List PoolFactory.Ev}
    (hst : PoolFactory.Started cfg.fac w0) (h0 : j0.world = PoolFactory.run cfg.fac w0 fevs)
    (he : ∀ f, j0.sys.wl.factoryWhitelist.contains f = true → f = cfg.factory)
    (ht : FoundationTrusts cfg j0.sys.wl.foundation evs) {si : Lockup.StakingInfo}
    (hsel : (jrun cfg j0 evs).sys.lk.c.staking = some si) :
    (Listed j0.sys si.pool ∨ ∃ who att name owner key fee w,
      (PoolFactory.Asked cfg.fac w0 fevs who att name owner key fee ∨
        JAsked cfg j0 evs who att name owner key fee) ∧
      si.pool = subAccount name cfg.factory ∧ PoolFactory.getMinAttachedBalance ≤ att ∧
      (jrun cfg j0 evs).sys.pools.get si.pool = some w ∧
      StakingPool.Reachable (cfg.sys.pool si.pool) w ∧ StakingPool.getOwnerId w.pool = owner) ∧
    (∃ w, (jrun cfg j0 evs).sys.pools.get si.pool = some w ∧
      StakingPool.Reachable (cfg.sys.pool si.pool) w) ∧
    ∀ q ∈ (jrun cfg j0 evs).sys.lk.pend, ∀ p, q.ext.pool? = some p → p = si.pool := by
  have hj := jinv_start h
  have hc := trusts_careful hj ht he
  obtain ⟨hj', hw, hs, hcs⟩ := jrun_all hj hc
  rw [hs] at hsel
  obtain ⟨⟨l1, l2, l3, i, r, cb, hl, _, hlist⟩, hpool, hpend⟩ :=
    C87_selected_pool_is_a_listed_pool h.sys hcs hsel
  rw [← hs] at hpool hpend
  refine ⟨?_, hpool, hpend⟩
  obtain ⟨e1, e2, rfl, hpre⟩ := sysHist_prefix hj hc hl
  rw [← hpre] at hlist
  rcases listed_jrun hj (trusts_append ht).1 he hlist with h1 | ⟨acc, h1⟩
  · exact .inl h1
  · rw [h0, ← fac_run_append] at hw
    suffices hp : (jrun cfg j0 (e1 ++ e2)).fac.accounts.get si.pool = some acc by
      obtain ⟨who, att, name, owner, key, fee, w, h2, h3⟩ := created_pool (acc := acc) hj' hst hw hp
      exact .inr ⟨who, att, name, owner, key, fee, w, asked_split hj hc h0 h2, h3⟩
    have hc2 := jcareful_append.mp hc
    have e : (jrun cfg j0 (e1 ++ e2)).fac.accounts = (jrun cfg (jrun cfg j0 e1) e2).world.accounts := by
      rw [jrun_append]; rfl
    rw [e, (jrun_all (jrun_all hj hc2.1).1 hc2.2).2.1]
    exact PoolFactory.accounts_run _ _ _ _ _ h1

/-- **C100.** Under the same conditions the locked amount is covered at every moment by the account, by
what is on its way and by what the deployed pools report: no contract outside of /repo is trusted, apart
from the pools listed when the lockup was created. -/
theorem C100_locked_tokens_covered {cfg : JCfg} {a : Lockup.NewArgs} {j0 : Joint} {evs : List JEv}
    (h : JStarted cfg a j0)
    (he : ∀ f, j0.sys.wl.factoryWhitelist.contains f = true → f = cfg.factory)
    (ht : FoundationTrusts cfg j0.sys.wl.foundation evs)
    (hv : Lockup.VestingOk cfg.sys.lk (Lockup.argVesting a))
    (hn : (∀ b, a.vesting ≠ some (.hash b)) ∨ (jrun cfg j0 evs).sys.lk.fixedUnvested = none)
    (e : Lockup.Env) (hnow : e.now = (jrun cfg j0 evs).sys.lk.now) :
    let s := (jrun cfg j0 evs).sys
    ∃ l, Lockup.getLockedAmount e s.lk.c = .ok l ∧
      l ≤ s.lk.bal + s.lk.incoming + (s.pools.keys.map (reported cfg.sys s)).sum +
        Lockup.inFlight s.lk :=
  C86_locked_tokens_covered (C100_factory_is_careful h (trusts_careful (jinv_start h) ht he)) hv hn e
    hnow

/-! ## A concrete history -/

/-- The deployment of the example. -/
def jdemoCfg : JCfg := { sys := demoCfg, factory := "factory", existing := fun _ => false }

/-- The foundation has admitted the factory. -/
def jdemoWl : Whitelist.State :=
  Whitelist.run demoCfg.validAccountId Whitelist.demo0 [⟨"foundation", 0, .addFactory "factory"⟩]

/-- A new lockup, a new factory, no pools. -/
def jdemo0 : Joint :=
  { sys := { startOf Lockup.pollArgs with wl := jdemoWl }
    fac :=
      { c := ⟨"wl", .empty⟩, bal := 5, epoch := 7, accounts := .empty, receipts := [], wl := jdemoWl,
        attachedBy := fun _ => 0, refunded := fun _ => 0 } }

theorem jdemo0_started : JStarted jdemoCfg Lockup.pollArgs jdemo0 := by
  refine ⟨⟨demo_started.lk, rfl, demo_started.pools, ?_, demo_started.poll, demo_started.now⟩, ?_, rfl,
    ?_, ?_, ?_⟩
  · intro p hl
    cases hl
  · exact ⟨jdemo0.fac, [], ⟨"x", "wl", _, 5, 7, "foundation", _, _, rfl, ⟨"x", rfl⟩, rfl⟩, rfl⟩
  · intro h
    have : directSub jdemoCfg.factory jdemoCfg.sys.lockup = false := by decide +kernel
    rw [this] at h; cases h
  · intro p acc h
    cases h
  · intro p h
    cases h

/-- `alice` asks for a pool, the factory creates and lists it, the owner of the lockup selects it and
stakes five NEAR; others try to list accounts and to deploy on a sub-account of the factory. -/
def jdemoEvs : List JEv :=
  [.fac (.create "alice" PoolFactory.minAttachedBalance "p" "boss" "key" ⟨1, 10⟩),
   .sys (.whitelist ⟨"mallory", 0, .addPool "mallory"⟩),
   .sys (.whitelist ⟨"factory", 0, .addPool "mallory"⟩),
   .sys (.create "p.factory" "mallory" "mallory" "key" ⟨1, 10⟩ (30 * 10 ^ 24) 7),
   .fac (.deliver 0 true), .fac (.deliver 0 true), .fac (.deliver 0 true),
   .sys (.whitelist ⟨"foundation", 0, .removeFactory "factory"⟩),
   .sys (.call "owner" 0 (.owner (.selectStakingPool "p.factory"))), .sys (.execute 0 true .failed),
   .sys (.callback 0),
   .sys (.call "owner" 0 (.owner (.depositAndStake (5 * 10 ^ 24)))), .sys (.execute 0 true .failed),
   .sys (.callback 0), .sys (.pool "p.factory" (.reward (10 ^ 22)))]

theorem jdemo_entitled : ∀ f, jdemo0.sys.wl.factoryWhitelist.contains f = true → f = jdemoCfg.factory := by
  intro f h
  have e : jdemo0.sys.wl.factoryWhitelist = UMap.empty.insert "factory" () := rfl
  rw [e] at h
  obtain ⟨v, hv⟩ := contains_get.mp h
  rw [UMap.get_insert] at hv
  split at hv
  · rename_i e; exact e.symm
  · cases hv

theorem jdemo_trusts : FoundationTrusts jdemoCfg jdemo0.sys.wl.foundation jdemoEvs := by
  have e : jdemo0.sys.wl.foundation = "foundation" := rfl
  rw [e]
  refine ⟨fun att p h => ?_, fun att f h => ?_⟩ <;> simp [jdemoEvs] at h

/-- The lockup has five NEAR at a pool of the factory; nothing else is listed. -/
example : (jrun jdemoCfg jdemo0 jdemoEvs).sys.lk.c.staking = some ⟨"p.factory", false, 5 * 10 ^ 24⟩ ∧
    (jrun jdemoCfg jdemo0 jdemoEvs).sys.wl.whitelist.keys = ["p.factory"] ∧
    reported demoCfg (jrun jdemoCfg jdemo0 jdemoEvs).sys "p.factory" = 5 * 10 ^ 24 := by
  decide +kernel

/-- `C100_listed_pools_were_asked_for` applies: the factory is new. -/
example : ∃ who att name owner key fee w,
    (PoolFactory.Asked jdemoCfg.fac jdemo0.fac [] who att name owner key fee ∨
      JAsked jdemoCfg jdemo0 jdemoEvs who att name owner key fee) ∧
    "p.factory" = subAccount name "factory" ∧ PoolFactory.getMinAttachedBalance ≤ att ∧
    (jrun jdemoCfg jdemo0 jdemoEvs).sys.pools.get "p.factory" = some w ∧
    StakingPool.Reachable (demoCfg.pool "p.factory") w ∧ StakingPool.getOwnerId w.pool = owner :=
  (C100_listed_pools_were_asked_for jdemo0_started (fevs := [])
    ⟨"x", "wl", _, 5, 7, "foundation", _, _, rfl, ⟨"x", rfl⟩, rfl⟩ rfl jdemo_entitled jdemo_trusts
    (by unfold Listed; decide +kernel)).resolve_left (by intro h; cases h)

example : Reachable demoCfg Lockup.pollArgs (jrun jdemoCfg jdemo0 jdemoEvs).sys :=
  C100_factory_is_careful jdemo0_started
    (trusts_careful (jinv_start jdemo0_started) jdemo_trusts jdemo_entitled)

end Verif.System
