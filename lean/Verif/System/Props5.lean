import Verif.System.Props4
import Verif.System.Recover

/-!
# System property C101: from the factory to the lockup
-/

namespace Verif.System

open Verif Verif.Factory

/-! ## Helper lemmas -/

/-- The owner selects the pool `p`; the whitelist answers; the callback runs. -/
def sysSelect (owner : AccountId) (k : Nat) (p : AccountId) : List Ev :=
  [.call owner 0 (.owner (.selectStakingPool p)), .execute k true .failed, .callback k]

theorem run_select {cfg : Cfg} {s : Sys} (hwl : s.lk.c.whitelist = cfg.whitelist)
    (ho : s.lk.c.owner ≠ cfg.lockup) (hs : s.lk.c.staking = none)
    (hterm : ∀ u st, s.lk.c.vesting ≠ .terminating u st) {p : AccountId}
    (hv : cfg.validAccountId p = true) :
    let s' := run cfg s (sysSelect s.lk.c.owner s.lk.pend.length p)
    (Listed s p → s'.lk.c = { s.lk.c with staking := some ⟨p, false, 0⟩ }) ∧
    (¬ Listed s p → s'.lk.c = s.lk.c) ∧
    s'.lk.bal = s.lk.bal ∧ s'.lk.incoming = s.lk.incoming ∧ s'.lk.now = s.lk.now ∧
    s'.lk.pend = s.lk.pend ∧ s'.pools = s.pools ∧ s'.wl = s.wl ∧ s'.poll = s.poll := by
  have hx : Lockup.exec (Lockup.mkEnv cfg.lk s.lk s.lk.c.owner 0 none) s.lk.c
      (.owner (.selectStakingPool p)) = .ok (s.lk.c,
        some ⟨.isWhitelisted s.lk.c.whitelist p, some (.onWhitelist p)⟩) :=
    (Lockup.C74_select_exact _ _ _ _ _).mpr ⟨rfl, rfl, hv, hs, hterm, rfl, rfl⟩
  have h1 := Lockup.step_call_ok (cfg := cfg.lk) ho hx (Nat.zero_le _)
  have hk : (s.lk.pend ++ [(⟨.isWhitelisted s.lk.c.whitelist p, some (.onWhitelist p), .sent⟩ :
      Lockup.Pending)])[s.lk.pend.length]? =
      some ⟨.isWhitelisted s.lk.c.whitelist p, some (.onWhitelist p), .sent⟩ := Lockup.getElem?_last
  have hask : ∀ s' : Sys, s'.wl = s.wl → askWhitelist cfg s' p = .bool (s.wl.whitelist.contains p) := by
    intro s' h
    unfold askWhitelist
    have : Whitelist.isWhitelisted (Whitelist.mkEnv cfg.validAccountId cfg.lockup 0) s'.wl p =
        .ok (s.wl.whitelist.contains p) := by
      rw [h]
      simp only [Whitelist.isWhitelisted, bind_ok, require_ok, pure_ok]
      exact ⟨(), hv, trivial⟩
    rw [this]
  have h2 : ∀ (s1 : Sys) (l : List Lockup.Pending), s1.wl = s.wl → s1.lk.c = s.lk.c →
      s1.lk.pend = l ++ [⟨.isWhitelisted s.lk.c.whitelist p, some (.onWhitelist p), .sent⟩] →
      let s2 := step cfg s1 (.execute l.length true .failed)
      s2.lk.pend = l ++ [⟨.isWhitelisted s.lk.c.whitelist p, some (.onWhitelist p),
        .done (.bool (s.wl.whitelist.contains p))⟩] ∧
      s2.lk.c = s1.lk.c ∧ s2.lk.bal = s1.lk.bal ∧ s2.lk.incoming = s1.lk.incoming ∧
      s2.lk.now = s1.lk.now ∧ s2.pools = s1.pools ∧ s2.wl = s1.wl ∧ s2.poll = s1.poll := by
    intro s1 l hw hc hp
    have ha := hask s1 hw
    simp only [step, execute, hp, Lockup.getElem?_last, Lockup.set_last, runExt, callOf, viewOf, answered,
      Bool.true_eq_false, if_false, hwl, if_true, ha, Lockup.runExt]
    split <;> simp
  have h3 : ∀ (s1 : Sys) (l : List Lockup.Pending) (b : Bool), s1.lk.c = s.lk.c →
      s1.lk.pend = l ++ [⟨.isWhitelisted s.lk.c.whitelist p, some (.onWhitelist p), .done (.bool b)⟩] →
      let s2 := step cfg s1 (.callback l.length)
      s2.lk.pend = l ∧
      s2.lk.c = (if b = true then { s.lk.c with staking := some ⟨p, false, 0⟩ } else s.lk.c) ∧
      s2.lk.bal = s1.lk.bal ∧ s2.lk.incoming = s1.lk.incoming ∧
      s2.lk.now = s1.lk.now ∧ s2.pools = s1.pools ∧ s2.wl = s1.wl ∧ s2.poll = s1.poll := by
    intro s1 l b hc hp
    have ht : s.lk.c.vesting.isTerminating = false := by
      cases hve : s.lk.c.vesting with
      | terminating u st => exact absurd hve (hterm u st)
      | _ => rfl
    have hx : Lockup.exec (Lockup.mkEnv cfg.lk { s1.lk with pend := l } cfg.lk.self 0 (some (.bool b)))
        s1.lk.c (.callback (.onWhitelist p)) =
        if b = true then .ok ({ s.lk.c with staking := some ⟨p, false, 0⟩ }, none)
        else .error "The given staking pool account ID is not whitelisted" := by
      rw [hc]
      simp only [Lockup.exec, Lockup.execCallback, Lockup.onWhitelist, Lockup.callbackBool, Lockup.mkEnv,
        Lockup.assertSelf, Lockup.assertNotSelected, Lockup.assertNoTermination, hs, ht]
      cases b <;> rfl
    simp only [step, Lockup.step, Lockup.callback, hp, Lockup.getElem?_last, Lockup.eraseIdx_last,
      Lockup.doCall]
    rw [hx]
    cases b with
    | true => simp [Lockup.effAttached, Lockup.commit, Lockup.effPending]
    | false => simp [hc]
  intro s'
  let s1 := step cfg s (.call s.lk.c.owner 0 (.owner (.selectStakingPool p)))
  have e1 : s1.lk = Lockup.commit s.lk 0 s.lk.c
      (some ⟨.isWhitelisted s.lk.c.whitelist p, some (.onWhitelist p)⟩) := h1
  have g2 := h2 s1 s.lk.pend rfl (by rw [e1]; rfl) (by rw [e1]; rfl)
  obtain ⟨a1, a2, a3, a4, a5, a6, a7, a8⟩ := g2
  have g3 := h3 (step cfg s1 (.execute s.lk.pend.length true .failed)) s.lk.pend _
    (by rw [a2, e1]; rfl) a1
  obtain ⟨b1, b2, b3, b4, b5, b6, b7, b8⟩ := g3
  have hs' : s' = step cfg (step cfg s1 (.execute s.lk.pend.length true .failed))
    (.callback s.lk.pend.length) := rfl
  rw [hs']
  refine ⟨fun hl => ?_, fun hl => ?_, ?_, ?_, ?_, b1, b6.trans a6, b7.trans a7, b8.trans a8⟩
  · rw [b2]; exact if_pos hl
  · rw [b2]; exact if_neg hl
  · rw [b3, a3, e1]; rfl
  · rw [b4, a4, e1]; rfl
  · rw [b5, a5, e1]; rfl

theorem eraseIdx_end {l : List PoolFactory.Receipt} {r : PoolFactory.Receipt} :
    (l ++ [r]).eraseIdx l.length = l := by
  induction l with
  | nil => rfl
  | cons x t ih => simp only [List.cons_append, List.length_cons, List.eraseIdx_cons_succ, ih]

/-- Somebody asks for a pool; the account is created, the factory hears of it and lists it. -/
def jcreate (who : AccountId) (att : Nat) (name owner : AccountId) (key : PublicKey)
    (fee : StakingPool.Fee) (n : Nat) : List JEv :=
  [.fac (.create who att name owner key fee), .fac (.deliver n true), .fac (.deliver n true),
   .fac (.deliver n true)]

/-- The same events at the factory alone. -/
theorem fac_creates {cfg : PoolFactory.Cfg} {w0 : PoolFactory.World}
    (hs : PoolFactory.Started cfg w0) (evs : List PoolFactory.Ev) {who : AccountId} {att : Nat}
    {name owner : AccountId} {key : PublicKey} {fee : StakingPool.Fee}
    (hx : ∃ r, PoolFactory.createStakingPool
      (PoolFactory.mkEnv cfg (PoolFactory.run cfg w0 evs) who att []) (PoolFactory.run cfg w0 evs).c
      name owner key fee = .ok r)
    (hex : cfg.existing (subAccount name cfg.self) = false) (hk : cfg.validPublicKey key = true)
    (hm : PoolFactory.MayAdd cfg (PoolFactory.run cfg w0 evs)) :
    let w := PoolFactory.run cfg w0 evs
    let n := w.receipts.length
    let w' := PoolFactory.run cfg w [.create who att name owner key fee, .deliver n true,
      .deliver n true, .deliver n true]
    (∃ acc, w'.accounts.get (subAccount name cfg.self) = some acc ∧ acc.pool.pool.ownerId = owner ∧
      acc.pool.pool.stakePublicKey = key ∧ acc.pool.pool.rewardFee = fee ∧ acc.pool.liquid = att) ∧
    w'.receipts = w.receipts ∧ w'.bal = w.bal ∧
    Whitelist.PoolIn cfg.validAccountId w'.wl (subAccount name cfg.self) ∧
    ∀ id, id ≠ subAccount name cfg.self → w'.accounts.get id = w.accounts.get id := by
  intro w n w'
  obtain ⟨a1, a2, a3, a4, _⟩ := (PoolFactory.C91_start_exact (cfg := cfg) w who att name owner key
    fee).1 hx
  let w1 := PoolFactory.step cfg w (.create who att name owner key fee)
  have e1 : w1 = PoolFactory.run cfg w0 (evs ++ [.create who att name owner key fee]) := by
    rw [PoolFactory.run_snoc]
  have hr1 : (PoolFactory.run cfg w0 (evs ++ [.create who att name owner key fee])).receipts[n]? =
      some (.create ⟨subAccount name cfg.self, att, .stakingPool, owner, key, fee⟩
        (subAccount name cfg.self) att who) := by
    rw [← e1]
    show w1.receipts[n]? = _
    rw [a1]; simp [n]
  obtain ⟨b1, _, b2, _⟩ := PoolFactory.C91_creation_exact hs _ hr1 true
  obtain ⟨b3, b4, b5, b6⟩ := b1 ⟨rfl, hex, hk⟩
  rw [← e1] at b2 b3 b4 b5 b6
  let w2 := PoolFactory.step cfg w1 (.deliver n true)
  have b3' : w2.receipts = w.receipts ++ [.callback (subAccount name cfg.self) att who true] := by
    rw [b3]
    show w1.receipts.eraseIdx n ++ _ = _
    rw [a1, eraseIdx_end]
  have hr2 : w2.receipts[n]? = some (.callback (subAccount name cfg.self) att who true) := by
    rw [b3']; simp [n]
  have c1 := PoolFactory.C91_success_exact (cfg := cfg) hr2 true
  let w3 := PoolFactory.step cfg w2 (.deliver n true)
  have e3 : w3 = PoolFactory.run cfg w0 (evs ++ [.create who att name owner key fee] ++
      [.deliver n true] ++ [.deliver n true]) := by
    rw [PoolFactory.run_snoc, PoolFactory.run_snoc, PoolFactory.run_snoc]
  have hr3 : w3.receipts = w.receipts ++ [.whitelist w2.c.whitelistId (subAccount name cfg.self)] := by
    show (PoolFactory.step cfg w2 _).receipts = _
    rw [c1, b3', eraseIdx_end]
  have hr3' : (PoolFactory.run cfg w0 (evs ++ [.create who att name owner key fee] ++
      [.deliver n true] ++ [.deliver n true])).receipts[n]? =
      some (.whitelist w2.c.whitelistId (subAccount name cfg.self)) := by
    rw [← e3, hr3]; simp [n]
  obtain ⟨d1, d2, d3, d4, d5, d6⟩ := PoolFactory.C91_whitelisting_exact hs _ hr3' true
  rw [← e3] at d1 d3 d4 d6
  have hwl : w3.wl = w.wl := by
    show (PoolFactory.step cfg w2 _).wl = _
    rw [c1]
    exact b2.trans a4
  have hw' : w' = PoolFactory.step cfg w3 (.deliver n true) := rfl
  have hacc : w'.accounts = w2.accounts := by
    rw [hw', d3]
    show (PoolFactory.step cfg w2 _).accounts = _
    rw [c1]
  refine ⟨?_, ?_, ?_, ?_, ?_⟩
  · rw [hacc]
    have hr1' : w1.receipts[n]? = some (.create ⟨subAccount name cfg.self, att, .stakingPool, owner, key,
        fee⟩ (subAccount name cfg.self) att who) := by
      rw [e1]; exact hr1
    have hw2 : w2 = PoolFactory.execReceipt cfg { w1 with receipts := w1.receipts.eraseIdx n } true
        (.create ⟨subAccount name cfg.self, att, .stakingPool, owner, key, fee⟩
          (subAccount name cfg.self) att who) := by
      show PoolFactory.step cfg w1 _ = _
      simp only [PoolFactory.step, hr1']
    simp only [PoolFactory.execReceipt, if_true] at hw2
    cases hd : PoolFactory.deploy cfg { w1 with receipts := w1.receipts.eraseIdx n }
        ⟨subAccount name cfg.self, att, .stakingPool, owner, key, fee⟩ who with
    | none =>
      rw [hd] at hw2
      have hno : ¬ PoolFactory.IsPool w1 (subAccount name cfg.self) := by
        have := ((PoolFactory.C52_accepted_iff hs evs who att name owner key fee).mp hx).2.2.2.2.2.2.2.2.1
        rintro ⟨acc, hacc⟩
        have hacc' : w1.accounts.get _ = some acc := hacc
        rw [show w1.accounts = w.accounts from a3] at hacc'
        exact this ⟨acc, hacc'⟩
      obtain ⟨acc, h⟩ := b5
      have h' : w2.accounts.get (subAccount name cfg.self) = some acc := h
      rw [hw2] at h'
      exact absurd ⟨acc, h'⟩ hno
    | some acc =>
      rw [hd] at hw2
      obtain ⟨_, _, _, _, _, _, g7, q, effs, g8, g9⟩ := PoolFactory.deploy_some hd
      refine ⟨acc, by rw [hw2]; exact UMap.get_insert_self .., ?_⟩
      simp only [StakingPool.new, bind_ok, pure_ok, Prod.mk.injEq] at g8
      obtain ⟨_, _, _, _, _, _, _, _, _, _, _, _, _, _, _, _, rfl, _⟩ := g8
      refine ⟨?_, ?_, ?_, g7⟩ <;> rw [g9] <;> rfl
  · rw [hw', d6, hr3, eraseIdx_end]
  · rw [hw', d4]
    show (PoolFactory.step cfg w2 _).bal = _
    rw [c1]
    exact b4.trans a2
  · rw [hw']
    refine (d1 _).mpr (.inr ⟨rfl, ?_⟩)
    unfold PoolFactory.MayAdd at hm ⊢
    rw [hwl]; exact hm
  · intro id hne
    rw [hacc]
    have := b6 id hne
    rw [this]
    show w1.accounts.get id = _
    rw [a3]

/-! ## C101 -/

/-- **C101.** Selecting a pool with the real whitelist: from every state without a selected pool and
without a termination, the owner's `select_staking_pool` ends with the pool selected if it is listed, and
with no change otherwise. Nothing else changes. -/
theorem C101_select_decided_by_whitelist {cfg : Cfg} {a : Lockup.NewArgs} {s : Sys}
    (h : Reachable cfg a s) (ho : a.owner ≠ cfg.lockup) (hs : s.lk.c.staking = none)
    (hterm : ∀ u st, s.lk.c.vesting ≠ .terminating u st) {p : AccountId}
    (hv : cfg.validAccountId p = true) :
    let s' := run cfg s (sysSelect a.owner s.lk.pend.length p)
    (Listed s p → s'.lk.c = { s.lk.c with staking := some ⟨p, false, 0⟩ }) ∧
    (¬ Listed s p → s'.lk.c = s.lk.c) ∧
    s'.lk.bal = s.lk.bal ∧ s'.lk.incoming = s.lk.incoming ∧ s'.lk.now = s.lk.now ∧
    s'.lk.pend = s.lk.pend ∧ s'.pools = s.pools ∧ s'.wl = s.wl ∧ s'.poll = s.poll := by
  have hi := reachable_inv h
  have hoc := owner_const hi
  rw [← hoc] at ho ⊢
  exact run_select hi.wl ho hs hterm hv

/-- **C101.** From the factory to the lockup: whenever the whitelist admits the factory, an accepted
`create_staking_pool` with a good staking key for an account that did not exist before the factory ends
with a new staking pool that has the given owner and is listed; and then the owner of any lockup without
a selected pool and without a termination can select it. The factory keeps nothing, and nothing else
changes at the lockup. -/
theorem C101_new_pool_can_be_selected {cfg : JCfg} {a : Lockup.NewArgs} {j0 : Joint} {evs : List JEv}
    (h : JStarted cfg a j0) (hc : JCareful cfg j0 evs) {who : AccountId} {att : Nat}
    {name owner : AccountId} {key : PublicKey} {fee : StakingPool.Fee}
    (hx : ∃ r, PoolFactory.createStakingPool
      (PoolFactory.mkEnv cfg.fac (jrun cfg j0 evs).world who att []) (jrun cfg j0 evs).fac.c
      name owner key fee = .ok r)
    (hex : cfg.existing (subAccount name cfg.factory) = false)
    (hk : cfg.sys.validPublicKey key = true)
    (hm : PoolFactory.MayAdd cfg.fac (jrun cfg j0 evs).world)
    (ho : a.owner ≠ cfg.sys.lockup) (hs : (jrun cfg j0 evs).sys.lk.c.staking = none)
    (hterm : ∀ u st, (jrun cfg j0 evs).sys.lk.c.vesting ≠ .terminating u st) :
    let j := jrun cfg j0 evs
    let p := subAccount name cfg.factory
    let j1 := jrun cfg j (jcreate who att name owner key fee j.fac.receipts.length)
    let j2 := jrun cfg j1 ((sysSelect a.owner j.sys.lk.pend.length p).map .sys)
    ¬ j.sys.pools.contains p = true ∧ Listed j1.sys p ∧ j1.fac.bal = j.fac.bal ∧
    (∃ w, j1.sys.pools.get p = some w ∧ StakingPool.Reachable (cfg.sys.pool p) w ∧
      StakingPool.getOwnerId w.pool = owner) ∧
    j1.sys.lk = j.sys.lk ∧
    j2.sys.lk.c = { j.sys.lk.c with staking := some ⟨p, false, 0⟩ } ∧ j2.sys.lk.bal = j.sys.lk.bal := by
  intro j p j1 j2
  have hj0 := jinv_start h
  obtain ⟨hj, hw, _, _⟩ := jrun_all hj0 hc
  have hc1 : JCareful cfg j (jcreate who att name owner key fee j.fac.receipts.length) := by
    simp [jcreate, JCareful]
  obtain ⟨hj1, hw1, hs1, hcs1⟩ := jrun_all hj hc1
  obtain ⟨w0, fevs, hst, hf0⟩ := h.fac
  rw [hf0, ← fac_run_append] at hw
  have hw' : j.world = PoolFactory.run cfg.fac w0 (fevs ++ facHist evs) := hw
  have hx' : ∃ r, PoolFactory.createStakingPool (PoolFactory.mkEnv cfg.fac
      (PoolFactory.run cfg.fac w0 (fevs ++ facHist evs)) who att [])
      (PoolFactory.run cfg.fac w0 (fevs ++ facHist evs)).c name owner key fee = .ok r := by
    rw [← hw']; exact hx
  have hm' : PoolFactory.MayAdd cfg.fac (PoolFactory.run cfg.fac w0 (fevs ++ facHist evs)) := by
    rw [← hw']; exact hm
  obtain ⟨g1, g2, g3, g4, g5⟩ := fac_creates hst _ hx' hex hk hm'
  rw [← hw'] at g1 g2 g3 g4 g5
  have hj1w : j1.world = PoolFactory.run cfg.fac j.world [.create who att name owner key fee,
    .deliver j.fac.receipts.length true, .deliver j.fac.receipts.length true,
    .deliver j.fac.receipts.length true] := hw1
  have hacc := (PoolFactory.C52_accepted_iff hst _ who att name owner key fee).mp hx'
  rw [← hw'] at hacc
  obtain ⟨_, _, hdot, hvid, _, _, _, _, hnp, _⟩ := hacc
  have hsub : directSub cfg.factory p = true := by
    show directSub _ (subAccount _ _) = true
    rw [directSub_subAccount]; simpa using hdot
  have hnew : ¬ j.sys.pools.contains p = true := fun hp =>
    hnp (PoolFactory.isPool_iff.mpr (hj.others p hp hsub hex))
  have hlk : j1.sys.lk = j.sys.lk := rfl
  have hlist : Listed j1.sys p := by
    have : Whitelist.PoolIn cfg.sys.validAccountId j1.world.wl p := by rw [hj1w]; exact g4
    exact Whitelist.contains_iff.mpr (Whitelist.poolIn_iff.mp this).2
  have hlen : j.world.receipts.length = j.fac.receipts.length := rfl
  rw [hlen, ← hj1w] at g1
  obtain ⟨acc, hpool, ho1, hk1, hf1, hl1⟩ := g1
  have hj1w0 : j1.world = PoolFactory.run cfg.fac w0 (fevs ++ facHist evs ++
      [.create who att name owner key fee, .deliver j.fac.receipts.length true,
        .deliver j.fac.receipts.length true, .deliver j.fac.receipts.length true]) := by
    rw [fac_run_append, ← hw']; exact hj1w
  have hi1 := hj1.sys
  refine ⟨hnew, hlist, ?_, ?_, hlk, ?_⟩
  · have : j1.world.bal = j.world.bal := by rw [hj1w]; exact g3
    exact this
  · obtain ⟨pevs, hg⟩ := hj1.created p acc hpool
    obtain ⟨_, _, _, h8, _⟩ := PoolFactory.C52_created_accounts hst _ (by rw [← hj1w0]; exact hpool)
    obtain ⟨s0, hwi⟩ := StakingPool.reachable_inv ⟨acc.pool, [], h8, rfl⟩
    refine ⟨_, hg, (hi1.pools p _ hg).2, ?_⟩
    rw [← ho1]
    exact StakingPool.run_owner hwi pevs
  · have hi := reachable_inv (C100_factory_is_careful h hc)
    have hoc := owner_const hi
    have hoc' : j1.sys.lk.c.owner = a.owner := hoc
    have hsel := run_select (cfg := cfg.sys) (s := j1.sys) hi1.wl (by rw [hoc']; exact ho) hs hterm
      (p := p) hvid
    rw [hoc'] at hsel
    have hj2 : j2.sys = run cfg.sys j1.sys (sysSelect a.owner j1.sys.lk.pend.length p) := rfl
    rw [hj2]
    exact ⟨hsel.1 hlist, hsel.2.2.1⟩

/-! ## Concrete cases -/

/-- The hypotheses of `C101_new_pool_can_be_selected` are met at the start of the example; the key is
good, the factory is admitted. -/
example : ∃ r, PoolFactory.createStakingPool
    (PoolFactory.mkEnv jdemoCfg.fac (jrun jdemoCfg jdemo0 []).world "alice" PoolFactory.minAttachedBalance [])
    (jrun jdemoCfg jdemo0 []).fac.c "p" "boss" "key" ⟨1, 10⟩ = .ok r := ⟨_, rfl⟩

example : PoolFactory.MayAdd jdemoCfg.fac (jrun jdemoCfg jdemo0 []).world := by
  left
  rw [Whitelist.factoryIn_iff]
  exact ⟨rfl, by decide +kernel⟩

/-- The lockup has selected the new pool; `q.factory` is not listed and cannot be selected. -/
example : (jrun jdemoCfg jdemo0 (jcreate "alice" PoolFactory.minAttachedBalance "p" "boss" "key" ⟨1, 10⟩ 0 ++
      (sysSelect "owner" 0 "p.factory").map .sys)).sys.lk.c.staking = some ⟨"p.factory", false, 0⟩ ∧
    (jrun jdemoCfg jdemo0 (jcreate "alice" PoolFactory.minAttachedBalance "p" "boss" "key" ⟨1, 10⟩ 0 ++
      (sysSelect "owner" 0 "q.factory").map .sys)).sys.lk.c.staking = none := by
  decide +kernel

end Verif.System
