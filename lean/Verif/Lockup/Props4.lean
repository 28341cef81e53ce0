import Verif.Lockup.Props3
import Verif.Lockup.Hash

/-!
# Lockup properties C29–C34, C61: completing a termination, pool selection, transfers vote, keys,
authorization, private schedules
-/

namespace Verif.Lockup

open Verif

/-! ## C29 -/

/-- The events that complete a termination from an idle status: foundation calls, answers of the
pool (`S` staked, `N` unstaked), callbacks. `k` is the position of the new receipts. -/
def completion (f r : AccountId) (k S N : Nat) : TStatus → List Ev
  | .terminatedWithDeficit => termUnstake f k S ++ (termFetch f k N ++ termPay f k r)
  | .everythingUnstaked => termFetch f k N ++ termPay f k r
  | _ => termPay f k r

/-- The tokens that a completion brings to the account. -/
def fetched (N : Nat) : TStatus → Nat
  | .terminatedWithDeficit | .everythingUnstaked => N
  | _ => 0

/-- **C29.** From every reachable state in which a termination is in progress and no operation is
running, for every answer of the pool about staked and unstaked tokens (it must hold what it reports
and bring enough tokens), the sequence of foundation calls and callbacks ends with the termination
completed: no vesting, no foundation account, and the full fixed amount paid. (`f` is not the lockup
account itself.) Calls of the owner in between change nothing by `C27`. -/
theorem C29_termination_completes {cfg : Cfg} {a : NewArgs} {w : World} (h : Reachable cfg a w)
    {u S N : Nat} {st : TStatus} {f r : AccountId} (hv : w.c.vesting = .terminating u st)
    (hst : st = .terminatedWithDeficit ∨ st = .everythingUnstaked ∨ st = .readyToWithdraw)
    (hidle : ∀ si, w.c.staking = some si → si.busy = false)
    (hf : w.c.foundation = some f) (hfs : f ≠ cfg.self) (hr : cfg.validAccountId r = true)
    (hS : S < two128) (hN : N < two128) (hheld : N ≤ w.held)
    (hfunds : u + 35 * 10 ^ 23 ≤ w.bal + fetched N st) :
    let w' := run cfg w (completion f r w.pend.length S N st)
    w'.c.vesting = .none ∧ w'.c.foundation = none ∧
    w'.fixedUnvested = w.fixedUnvested ∧ w.fixedUnvested.isSome = true ∧
    w'.paid = w.fixedUnvested.getD 0 := by
  rw [← minBalanceForStorage_eq] at hfunds
  intro w'
  have hI := reachable_sinv h
  have hfix := hI.fix
  obtain ⟨F, hF, hu, hsum, hlt⟩ : ∃ F, w.fixedUnvested = some F ∧ 0 < u ∧
      u + w.c.info.terminationWithdrawn = F ∧ F < two128 := by
    cases hfx : w.fixedUnvested with
    | none => rw [hfx] at hfix; have := hfix.1; rw [hv] at this; cases this
    | some F =>
      rw [hfx] at hfix
      obtain ⟨h1, _, ⟨u', st', h2, h3, h4⟩ | ⟨h2, _⟩⟩ := hfix
      · rw [hv] at h2; cases h2; exact ⟨F, rfl, h3, h4, h1⟩
      · rw [hv] at h2; cases h2
  have hsel := reachable_poolSel h
  have hmain : w'.c.vesting = .none ∧ w'.c.foundation = none ∧
      w'.fixedUnvested = w.fixedUnvested := by
    rcases hst with rfl | rfl | rfl
    · have hs := hsel u _ hv rfl
      cases hsi : w.c.staking with
      | none => exact absurd hsi hs
      | some si =>
        have hb := hidle si hsi
        show (run cfg w (termUnstake f w.pend.length S ++ _)).c.vesting = _ ∧
          (run cfg w (termUnstake f w.pend.length S ++ _)).c.foundation = _ ∧
          (run cfg w (termUnstake f w.pend.length S ++ _)).fixedUnvested = _
        rw [run_append, run_termUnstake hf hfs hsi hb hv hS, run_append]
        have h2 := run_termFetch (cfg := cfg) (f := f)
          (w := { w with c := { w.c with vesting := .terminating u .everythingUnstaked } })
          hf hfs hsi hb rfl hN hheld
        erw [h2]
        obtain ⟨g1, g2, g3, _⟩ := run_termPay (cfg := cfg) (f := f) (r := r) (u := u) (w := { w with
            c := { w.c with vesting := .terminating u .readyToWithdraw,
                            staking := some ⟨si.pool, false, si.deposit - N⟩ },
            bal := w.bal + N,
            held := w.held - N }) hf hfs hr rfl hu
            (by show w.c.info.terminationWithdrawn + u < two128; omega) hfunds
        exact ⟨g1, g2, g3⟩
    · have hs := hsel u _ hv rfl
      cases hsi : w.c.staking with
      | none => exact absurd hsi hs
      | some si =>
        have hb := hidle si hsi
        show (run cfg w (termFetch f w.pend.length N ++ _)).c.vesting = _ ∧
          (run cfg w (termFetch f w.pend.length N ++ _)).c.foundation = _ ∧
          (run cfg w (termFetch f w.pend.length N ++ _)).fixedUnvested = _
        rw [run_append, run_termFetch hf hfs hsi hb hv hN hheld]
        obtain ⟨g1, g2, g3, _⟩ := run_termPay (cfg := cfg) (f := f) (r := r) (u := u) (w := { w with
            c := { w.c with vesting := .terminating u .readyToWithdraw,
                            staking := some ⟨si.pool, false, si.deposit - N⟩ },
            bal := w.bal + N,
            held := w.held - N }) hf hfs hr rfl hu
            (by show w.c.info.terminationWithdrawn + u < two128; omega) hfunds
        exact ⟨g1, g2, g3⟩
    · obtain ⟨g1, g2, g3, _⟩ := run_termPay (cfg := cfg) (f := f) (r := r) (u := u) (w := w) hf hfs
        hr hv hu (by omega) (by simpa [fetched] using hfunds)
      exact ⟨g1, g2, g3⟩
  have hreach : Reachable cfg a w' := h.run _
  have h28 := (C28_foundation_receives_unvested hreach).2
  rw [hmain.2.2] at h28
  have hsome : w.fixedUnvested.isSome = true := by rw [hF]; rfl
  exact ⟨hmain.1, hmain.2.1, hmain.2.2, hsome, h28 hsome hmain.1⟩

/-- The hypotheses are met by the terminated demo lockup with 5 NEAR at the pool, after some income
that pays for the storage reserve. -/
example : (run demoCfg demoTerminated [.income 4000000000000000000000000]).c.vesting =
      .terminating tenNear .terminatedWithDeficit ∧
    tenNear + 35 * 10 ^ 23 ≤
      (run demoCfg demoTerminated [.income 4000000000000000000000000]).bal +
        fetched 5000000000000000000000000 .terminatedWithDeficit := by
  constructor <;> decide +kernel

/-! ## C30 -/

/-- **C30.** In every history, if a pool is selected at the end then the owner asked for exactly this
pool with `select_staking_pool`, and afterwards the whitelist contract of the lockup answered `true`
to a query about exactly this pool. -/
theorem C30_selected_pool_is_whitelisted {cfg : Cfg} {a : NewArgs} {w0 : World} {evs : List Ev}
    {si : StakingInfo} (hs : Started cfg a w0)
    (hsel : (run cfg w0 evs).c.staking = some si) :
    ∃ l1 l2 l3 i cb,
      evs = l1 ++ .call a.owner 0 (.owner (.selectStakingPool si.pool)) :: l2 ++
        .execute i (.bool true) :: l3 ∧
      (run cfg w0 (l1 ++ .call a.owner 0 (.owner (.selectStakingPool si.pool)) :: l2)).pend[i]? =
        some ⟨.isWhitelisted a.whitelist si.pool, cb, .sent⟩ := by
  have hI := started_sinv hs
  have hinv := selInv_run (cfg := cfg) evs hI (started_selInv hs)
  have happ := hinv.sel si hsel
  have h0 : ¬ si.pool ∈ w0.approved := by
    obtain ⟨d, b, n, c, hb, hn, rfl⟩ := hs; simp [initWorld]
  have hq0 : ¬ si.pool ∈ w0.queried := by
    obtain ⟨d, b, n, c, hb, hn, rfl⟩ := hs; simp [initWorld]
  have hown : w0.c.owner = a.owner ∧ w0.c.whitelist = a.whitelist := by
    obtain ⟨d, b, n, c, hb, hn, rfl⟩ := hs
    obtain ⟨g1, _, _, g2, _⟩ := new_ok hn
    exact ⟨g1, g2⟩
  -- the answer
  obtain ⟨m1, ev, l3, rfl, hn1, hp1⟩ := run_cause (fun w => si.pool ∈ w.approved) evs h0 happ
  have hans : ∃ i cb, ev = .execute i (.bool true) ∧
      (run cfg w0 m1).pend[i]? = some ⟨.isWhitelisted a.whitelist si.pool, cb, .sent⟩ := by
    have hwl : (run cfg w0 m1).c.whitelist = a.whitelist :=
      (const_run (cfg := cfg) (w := w0) m1).2.1.trans hown.2
    have hcase := step_case cfg (run cfg w0 m1) ev
    replace hp1 : si.pool ∈ (step cfg (run cfg w0 m1) ev).approved := hp1
    generalize step cfg (run cfg w0 m1) ev = w' at hcase hp1
    cases hcase with
    | quiet ev w' h1 h2 h3 h4 => rw [h4] at hp1; exact absurd hp1 hn1
    | owner who c c' eff h1 h2 h3 h4 hr => exact absurd hp1 hn1
    | foundation who c c' eff h1 h2 h3 hr => exact absurd hp1 hn1
    | execNone i ext r hi =>
      rcases (runExt_approved (cfg := cfg) (cb := none) si.pool).mp hp1 with h | ⟨h, h', _⟩
      · exact absurd h hn1
      · exact ⟨i, none, by rw [h'], by rw [hi, h, hwl]⟩
    | execSome i ext cb r hi =>
      rcases (runExt_approved (cfg := cfg) (cb := some cb) si.pool).mp hp1 with h | ⟨h, h', _⟩
      · exact absurd h hn1
      · exact ⟨i, some cb, by rw [h'], by rw [hi, h, hwl]⟩
    | callbackOk i ext cb r c' eff hi hr => exact absurd hp1 hn1
    | callbackPanic i ext cb r hi => exact absurd hp1 hn1
  obtain ⟨i, cb, rfl, hpend⟩ := hans
  -- the question
  have hq : si.pool ∈ (run cfg w0 m1).queried :=
    (selInv_run (cfg := cfg) m1 hI (started_selInv hs)).qry _ (mem_of_getElem?' hpend) _ _ rfl
  obtain ⟨l1, ev, l2, rfl, hn2, hp2⟩ := run_cause (fun w => si.pool ∈ w.queried) m1 hq0 hq
  have hask : ev = .call a.owner 0 (.owner (.selectStakingPool si.pool)) := by
    have howner : (run cfg w0 l1).c.owner = a.owner :=
      (const_run (cfg := cfg) (w := w0) l1).1.trans hown.1
    have hcase := step_case cfg (run cfg w0 l1) ev
    replace hp2 : si.pool ∈ (step cfg (run cfg w0 l1) ev).queried := hp2
    generalize step cfg (run cfg w0 l1) ev = w' at hcase hp2
    cases hcase with
    | quiet ev w' h1 h2 h3 => rw [h3] at hp2; exact absurd hp2 hn2
    | owner who c c' eff h1 h2 h3 h4 hr =>
      rcases effQueried_owner hr with ⟨p, rfl, h5, _⟩ | ⟨h5, _⟩
      · simp only [commit, h5, List.mem_append, List.mem_singleton] at hp2
        rcases hp2 with rfl | hp2
        · rw [h2, howner]
        · exact absurd hp2 hn2
      · simp only [commit, h5, List.nil_append] at hp2
        exact absurd hp2 hn2
    | foundation who c c' eff h1 h2 h3 hr =>
      simp only [commit, (effQueried_foundation hr).1, List.nil_append] at hp2
      exact absurd hp2 hn2
    | execNone i ext r hi =>
      simp only [(runExt_facts cfg _ ⟨ext, none, .sent⟩ r).2.2.2.2.2.1] at hp2
      exact absurd hp2 hn2
    | execSome i ext cb r hi =>
      simp only [(runExt_facts cfg _ ⟨ext, some cb, .sent⟩ r).2.2.2.2.2.1] at hp2
      exact absurd hp2 hn2
    | callbackOk i ext cb r c' eff hi hr =>
      simp only [commit, (effQueried_cb hr).1, List.nil_append] at hp2
      exact absurd hp2 hn2
    | callbackPanic i ext cb r hi => exact absurd hp2 hn2
  subst hask
  exact ⟨l1, l2, l3, i, cb, by simp, hpend⟩

/-- **C30.** A selection is never overwritten: a step keeps the selected pool or removes it, and it is
removed only by the owner's `unselect_staking_pool` with a zero known deposit and no operation
running. -/
theorem C30_selection_not_overwritten {cfg : Cfg} {w : World} {si : StakingInfo} (ev : Ev)
    (hsel : w.c.staking = some si) :
    (∃ si', (step cfg w ev).c.staking = some si' ∧ si'.pool = si.pool) ∨
    ((step cfg w ev).c.staking = none ∧ si.deposit = 0 ∧ si.busy = false ∧
      ev = .call w.c.owner 0 (.owner .unselectStakingPool)) := by
  have key : ∀ o : Option StakingInfo, (∀ si', o = some si' →
      ∃ si0, w.c.staking = some si0 ∧ si0.pool = si'.pool) → (o = none ↔ w.c.staking = none) →
      ∃ si', o = some si' ∧ si'.pool = si.pool := by
    intro o h1 h2
    cases o with
    | none => rw [h2.mp rfl] at hsel; cases hsel
    | some si' =>
      obtain ⟨si0, h3, h4⟩ := h1 si' rfl
      rw [hsel] at h3; cases h3
      exact ⟨si', rfl, h4.symm⟩
  have hcase := step_case cfg w ev
  generalize step cfg w ev = w' at hcase
  cases hcase with
  | quiet ev w' h1 => rw [h1]; exact .inl ⟨si, hsel, rfl⟩
  | owner who c c' eff h1 h2 h3 h4 hr =>
    rcases ownerRel_staking hr with ⟨rfl, h5, si0, h6, h7, h8⟩ | ⟨h5, h6⟩
    · rw [hsel] at h6; cases h6
      exact .inr ⟨h5, h8, h7, by rw [h2]⟩
    · exact .inl (key _ h5 h6)
  | foundation who c c' eff h1 h2 h3 hr =>
    obtain ⟨h5, h6⟩ := foundationRel_staking hr
    exact .inl (key _ h5 h6)
  | execNone i ext r hi =>
    simp only [(runExt_facts cfg w ⟨ext, none, .sent⟩ r).1]; exact .inl ⟨si, hsel, rfl⟩
  | execSome i ext cb r hi =>
    simp only [(runExt_facts cfg w ⟨ext, some cb, .sent⟩ r).1]; exact .inl ⟨si, hsel, rfl⟩
  | callbackOk i ext cb r c' eff hi hr =>
    rcases cbRel_staking hr with ⟨h5, _⟩ | ⟨h5, h6⟩
    · rw [hsel] at h5; cases h5
    · exact .inl (key _ h5 h6)
  | callbackPanic i ext cb r hi => exact .inl ⟨si, hsel, rfl⟩

/-- the demo pool is selected -/
example : demoStaked.c.staking = some ⟨"pool", false, 5000000000000000000000000⟩ := by
  decide +kernel

/-! ## C31 -/

/-- **C31.** Once enabled with timestamp `t`, transfers stay enabled with the same `t`. -/
theorem C31_enabled_forever {cfg : Cfg} {w : World} {t : Nat}
    (h : w.c.info.transfers = .enabled t) (evs : List Ev) :
    (run cfg w evs).c.info.transfers = .enabled t := enabled_run evs h

/-- **C31.** In every history of a lockup created with transfers disabled, transfers are enabled with
timestamp `t` only after the poll contract named in `new` answered a query with exactly `t`. -/
theorem C31_enabled_only_by_poll {cfg : Cfg} {a : NewArgs} {w0 : World} {evs : List Ev} {t : Nat}
    {poll : AccountId} (hs : Started cfg a w0) (ha : a.transfers = .disabled poll)
    (hen : (run cfg w0 evs).c.info.transfers = .enabled t) :
    ∃ l1 l2 i cb, evs = l1 ++ .execute i (.poll (some t)) :: l2 ∧
      (run cfg w0 l1).pend[i]? = some ⟨.getResult poll, cb, .sent⟩ := by
  have hinv := pollInv_run (cfg := cfg) evs (started_sinv hs) (started_pollInv hs)
  rw [ha] at hinv
  have hmem : (poll, t) ∈ (run cfg w0 evs).pollAnswers := by
    rcases hinv.tr with h | ⟨p, t', h1, h2, h3⟩
    · rw [hen] at h; cases h
    · rw [hen] at h3; cases h3; cases h1; exact h2
  have h0 : ¬ (poll, t) ∈ w0.pollAnswers := by
    obtain ⟨d, b, n, c, hb, hn, rfl⟩ := hs; simp [initWorld]
  obtain ⟨l1, ev, l2, rfl, hn1, hp1⟩ :=
    run_cause (fun w => (poll, t) ∈ w.pollAnswers) evs h0 hmem
  have hans : ∃ i cb, ev = .execute i (.poll (some t)) ∧
      (run cfg w0 l1).pend[i]? = some ⟨.getResult poll, cb, .sent⟩ := by
    have hcase := step_case cfg (run cfg w0 l1) ev
    replace hp1 : (poll, t) ∈ (step cfg (run cfg w0 l1) ev).pollAnswers := hp1
    generalize step cfg (run cfg w0 l1) ev = w' at hcase hp1
    cases hcase with
    | quiet ev w' h1 h2 h3 h4 h5 => rw [h5] at hp1; exact absurd hp1 hn1
    | owner who c c' eff h1 h2 h3 h4 hr => exact absurd hp1 hn1
    | foundation who c c' eff h1 h2 h3 hr => exact absurd hp1 hn1
    | execNone i ext r hi =>
      rcases (runExt_polls (cfg := cfg) (cb := none) (poll, t)).mp hp1 with h | ⟨h, h'⟩
      · exact absurd h hn1
      · exact ⟨i, none, by rw [h'], by rw [hi, h]⟩
    | execSome i ext cb r hi =>
      rcases (runExt_polls (cfg := cfg) (cb := some cb) (poll, t)).mp hp1 with h | ⟨h, h'⟩
      · exact absurd h hn1
      · exact ⟨i, some cb, by rw [h'], by rw [hi, h]⟩
    | callbackOk i ext cb r c' eff hi hr => exact absurd hp1 hn1
    | callbackPanic i ext cb r hi => exact absurd hp1 hn1
  obtain ⟨i, cb, rfl, hp⟩ := hans
  exact ⟨l1, l2, i, cb, rfl, hp⟩

/-- the poll says yes with timestamp 777 -/
example : (run demoCfg (startOf pollArgs) [.call "owner" 0 (.owner .checkTransfersVote),
    .execute 0 (.poll (some 777)), .callback 0]).c.info.transfers = .enabled 777 := by decide +kernel

/-! ## C32 -/

/-- **C32.** Exactly when `add_full_access_key` succeeds. -/
theorem C32_add_full_access_key_iff (e : Env) (s s' : Lockup) (eff : Option Eff)
    (key : PublicKey) :
    exec e s (.owner (.addFullAccessKey key)) = .ok (s', eff) ↔
      (e.predecessor = s.owner ∧ e.attachedDeposit = 0 ∧ (∃ t, s.info.transfers = .enabled t) ∧
        (∀ si, s.staking = some si → si.busy = false) ∧ (∀ u st, s.vesting ≠ .terminating u st) ∧
        getLockedAmount e s = .ok 0) ∧
      s' = s ∧ eff = some ⟨.addFullAccessKey key, none⟩ := by
  have hen : transfersEnabled s = true ↔ ∃ t, s.info.transfers = .enabled t := by
    unfold transfersEnabled; cases s.info.transfers <;> simp
  have hterm : s.vesting.isTerminating = false ↔ ∀ u st, s.vesting ≠ .terminating u st := by
    unfold Vesting.isTerminating; cases s.vesting <;> simp
  have hidle : assertNoStakingOrIdle s = .ok () ↔ ∀ si, s.staking = some si → si.busy = false := by
    unfold assertNoStakingOrIdle
    cases hs : s.staking <;> simp [pure_ok]
  simp only [exec, execOwner, addFullAccessKey, bind_ok, notPayable_ok, assertOwner_ok,
    require_ok, assertTransfersEnabled_ok, assertNoTermination_ok, pure_ok, Prod.mk.injEq]
  constructor
  · rintro ⟨_, h1, _, h2, _, h3, _, h4, _, h5, l, h6, _, rfl, rfl, rfl⟩
    exact ⟨⟨h2, h1, hen.mp h3, hidle.mp h4, hterm.mp h5, h6⟩, rfl, rfl⟩
  · rintro ⟨⟨h2, h1, h3, h4, h5, h6⟩, rfl, rfl⟩
    exact ⟨(), h1, (), h2, (), hen.mpr h3, (), hidle.mpr h4, (), hterm.mpr h5, 0, h6, (), rfl, rfl,
      rfl⟩

/-- A key was added or is on its way. -/
def keyComing (w : World) : Prop :=
  w.fullKey = true ∨ ∃ p ∈ w.pend, ∃ k, p.ext = .addFullAccessKey k

theorem runExt_key {cfg : Cfg} {w : World} {ext : Ext} {cb : Option Callback} {r : PResult}
    (h : (runExt cfg w ⟨ext, cb, .sent⟩ r).2.fullKey = true) :
    w.fullKey = true ∨ ∃ k, ext = .addFullAccessKey k := by
  cases ext with
  | addFullAccessKey k => exact .inr ⟨k, rfl⟩
  | _ =>
    left
    revert h
    simp only [runExt]
    (repeat' split) <;> exact id

theorem effKey_cb {s s' : Lockup} {r : PResult} {c : Callback} {eff : Option Eff}
    (h : CbRel s r c s' eff) : ∀ q ∈ effPending eff, ∀ k, q.ext ≠ .addFullAccessKey k := by
  cases h <;> simp [effPending]

theorem effKey_foundation {e : Env} {s s' : Lockup} {c : FoundationCall} {eff : Option Eff}
    (h : FoundationRel e s c s' eff) : ∀ q ∈ effPending eff, ∀ k, q.ext ≠ .addFullAccessKey k := by
  cases h <;> simp [effPending]

/-- **C32.** In every history of a lockup without a private schedule: if a full access key was added
(or the receipt that adds it is on its way) then nothing is locked, now and forever. -/
theorem C32_key_only_when_nothing_locked {cfg : Cfg} {a : NewArgs} {w0 : World} {evs : List Ev}
    (hs : Started cfg a w0) (hv : VestingOk cfg (argVesting a))
    (hn : ∀ b, a.vesting ≠ some (.hash b)) (hk : keyComing (run cfg w0 evs)) (e : Env)
    (he : (run cfg w0 evs).now ≤ e.now) :
    getLockedAmount e (run cfg w0 evs).c = .ok 0 := by
  have hn0 : NoHash w0.c.vesting := by
    rw [argVesting_of_started hs]
    intro b
    unfold argVesting
    cases ha : a.vesting with
    | none => simp
    | some x =>
      cases x with
      | hash b' => exact absurd ha (hn b')
      | schedule vs => simp
  have hk0 : ¬ keyComing w0 := by
    obtain ⟨d, b, n, c, hb, hn, rfl⟩ := hs
    rintro (h | ⟨p, hp, _⟩)
    · cases h
    · simp [initWorld] at hp
  obtain ⟨l1, ev, l2, rfl, hn1, hp1⟩ := run_cause keyComing evs hk0 hk
  have hS := sinv_run (cfg := cfg) l1 (started_sinv hs)
  have hg := good_run (cfg := cfg) l1 (started_sinv hs) (started_good hs hv)
  have hnh : NoHash (run cfg w0 l1).c.vesting := by
    have : ∀ (l : List Ev) (w : World), NoHash w.c.vesting → NoHash (run cfg w l).c.vesting := by
      intro l
      induction l with
      | nil => intro w h; exact h
      | cons ev t ih => intro w h; exact ih _ (noHash_step ev h)
    exact this l1 w0 hn0
  -- the locked amount was zero when the key was requested
  have hzero : lockedVal (run cfg w0 l1).c (run cfg w0 l1).now = 0 := by
    generalize run cfg w0 l1 = w at *
    have hcase := step_case cfg w ev
    generalize step cfg w ev = w' at hcase hp1
    cases hcase with
    | quiet ev w' h1 h2 h3 h4 h5 h6 =>
      exact absurd (by unfold keyComing at hp1 ⊢; rw [h2, h6] at hp1; exact hp1) hn1
    | owner who c c' eff h1 h2 h3 h4 hr =>
      cases hr with
      | addKey k g1 g2 g3 =>
        rw [getLockedAmount_eq hg.1] at g3
        exact Except.ok.inj g3
      | _ =>
        exfalso
        apply hn1
        rcases hp1 with hp1 | ⟨p, hp, k, hpk⟩
        · exact .inl hp1
        · rcases List.mem_append.mp hp with hp | hp
          · exact .inr ⟨p, hp, k, hpk⟩
          · first
            | (simp only [effPending, List.mem_singleton] at hp; subst hp; cases hpk; done)
            | (simp [effPending] at hp; done)
            | (simp only [effPending, List.mem_singleton] at hp; subst hp
               rename_i hshape _ _
               simp only at hpk
               subst hpk
               cases hshape)
    | foundation who c c' eff h1 h2 h3 hr =>
      exfalso
      apply hn1
      rcases hp1 with hp1 | ⟨p, hp, k, hpk⟩
      · exact .inl hp1
      · rcases List.mem_append.mp hp with hp | hp
        · exact .inr ⟨p, hp, k, hpk⟩
        · exact absurd hpk (effKey_foundation hr p hp k)
    | execNone i ext r hi =>
      exfalso
      apply hn1
      rcases hp1 with hp1 | ⟨p, hp, k, hpk⟩
      · rcases runExt_key hp1 with h | ⟨k, rfl⟩
        · exact .inl h
        · exact .inr ⟨_, mem_of_getElem?' hi, k, rfl⟩
      · exact .inr ⟨p, mem_of_mem_eraseIdx' hp, k, hpk⟩
    | execSome i ext cb r hi =>
      exfalso
      apply hn1
      rcases hp1 with hp1 | ⟨p, hp, k, hpk⟩
      · rcases runExt_key hp1 with h | ⟨k, rfl⟩
        · exact .inl h
        · exact .inr ⟨_, mem_of_getElem?' hi, k, rfl⟩
      · rcases mem_set_cases hp with hp | rfl
        · exact .inr ⟨p, hp, k, hpk⟩
        · exact .inr ⟨_, mem_of_getElem?' hi, k, hpk⟩
    | callbackOk i ext cb r c' eff hi hr =>
      exfalso
      apply hn1
      rcases hp1 with hp1 | ⟨p, hp, k, hpk⟩
      · exact .inl hp1
      · rcases List.mem_append.mp hp with hp | hp
        · exact .inr ⟨p, mem_of_mem_eraseIdx' hp, k, hpk⟩
        · exact absurd hpk (effKey_cb hr p hp k)
    | callbackPanic i ext cb r hi =>
      exfalso
      apply hn1
      rcases hp1 with hp1 | ⟨p, hp, k, hpk⟩
      · exact .inl hp1
      · exact .inr ⟨p, mem_of_mem_eraseIdx' hp, k, hpk⟩
  have hend : lockedVal (run cfg w0 (l1 ++ ev :: l2)).c (run cfg w0 (l1 ++ ev :: l2)).now ≤ 0 := by
    rw [run_append]
    exact (lockedVal_run (ev :: l2) hS hg hnh).trans hzero.le
  have hg' := good_run (cfg := cfg) (l1 ++ ev :: l2) (started_sinv hs) (started_good hs hv)
  rw [getLockedAmount_eq hg'.1]
  have := lockedVal_mono hg'.1 he
  congr 1
  omega

/-- at time 4000 everything is released and vested and the key is added -/
example : (run demoCfg demoStaked [.tick 3000, .call "owner" 0 (.owner (.addFullAccessKey "k")),
    .execute 0 .unit]).fullKey = true := by decide +kernel

/-! ## C33 -/

/-- **C33.** Whoever makes a method succeed is the owner (owner methods), the foundation (termination
methods) or the contract itself (callbacks), and attaches no tokens. -/
theorem C33_authorization {e : Env} {s s' : Lockup} {c : Call} {eff : Option Eff}
    (h : exec e s c = .ok (s', eff)) :
    e.attachedDeposit = 0 ∧ s'.owner = s.owner ∧
    match c with
    | .owner _ => e.predecessor = s.owner
    | .foundation _ => s.foundation = some e.predecessor
    | .callback _ => e.predecessor = e.self := by
  cases c with
  | owner c =>
    obtain ⟨h1, h2, h3, h4⟩ := execOwner_rel h
    exact ⟨h1, (ownerRel_facts h4).2.2.2.2.1, h2⟩
  | foundation c =>
    obtain ⟨h1, h2, h3⟩ := execFoundation_rel h
    exact ⟨h1, by cases h3 <;> rfl, h2⟩
  | callback c =>
    simp only [exec, bind_ok, notPayable_ok] at h
    obtain ⟨_, h1, h⟩ := h
    obtain ⟨h2, r, _, h3⟩ := execCallback_rel h
    exact ⟨h1, by cases h3 <;> rfl, h2⟩

theorem foundation_step {cfg : Cfg} {w : World} (ev : Ev) {f : Option AccountId}
    (h : w.c.foundation = f ∨ (w.c.foundation = none ∧ w.c.vesting = .none)) :
    (step cfg w ev).c.foundation = f ∨
      ((step cfg w ev).c.foundation = none ∧ (step cfg w ev).c.vesting = .none) := by
  have hcase := step_case cfg w ev
  generalize step cfg w ev = w' at hcase
  cases hcase with
  | quiet ev w' h1 => rw [h1]; exact h
  | owner who c c' eff h1 h2 h3 h4 hr => cases hr <;> exact h
  | foundation who c c' eff h1 h2 h3 hr =>
    have hf : c'.foundation = w.c.foundation := by cases hr <;> rfl
    refine .inl (hf.trans ?_)
    rcases h with h | ⟨h, _⟩
    · exact h
    · rw [h] at h2; cases h2
  | execNone i ext r hi =>
    show (runExt cfg w ⟨ext, none, .sent⟩ r).2.c.foundation = f ∨ _
    rw [(runExt_facts cfg w ⟨ext, none, .sent⟩ r).1]; exact h
  | execSome i ext cb r hi =>
    show (runExt cfg w ⟨ext, some cb, .sent⟩ r).2.c.foundation = f ∨ _
    rw [(runExt_facts cfg w ⟨ext, some cb, .sent⟩ r).1]; exact h
  | callbackOk i ext cb r c' eff hi hr =>
    have key : ∀ u st, w.c.vesting = .terminating u st → w.c.foundation = f := by
      intro u st hv
      rcases h with h | ⟨_, h⟩
      · exact h
      · rw [hv] at h; cases h
    have key2 : ∀ x, x < terminatedUnvested w.c → w.c.foundation = f := by
      intro x hx
      cases hv : w.c.vesting with
      | terminating u st => exact key u st hv
      | _ => simp [terminatedUnvested, hv] at hx
    cases hr <;> first
      | exact h
      | exact .inr ⟨rfl, rfl⟩
      | exact .inl (key _ _ (by assumption))
      | exact .inl (key2 _ (by assumption))
  | callbackPanic i ext cb r hi => exact h

/-- **C33.** The owner is for ever the one given at initialization, and so is the foundation until a
termination of the vesting is completed, when there is no foundation and no vesting any more. -/
theorem C33_roles_are_fixed {cfg : Cfg} {a : NewArgs} {w : World} (h : Reachable cfg a w) :
    getOwnerAccountId w.c = a.owner ∧
    (w.c.foundation = a.foundation ∨
      (w.c.foundation = none ∧ getVestingInformation w.c = .none)) := by
  obtain ⟨w0, evs, ⟨d, b, n, c, hb, hx, rfl⟩, rfl⟩ := h
  refine ⟨(const_run evs).1.trans (new_ok hx).1, ?_⟩
  suffices hs : ∀ w1 : World, (w1.c.foundation = a.foundation ∨
      (w1.c.foundation = none ∧ w1.c.vesting = .none)) →
      (run cfg w1 evs).c.foundation = a.foundation ∨
        ((run cfg w1 evs).c.foundation = none ∧ (run cfg w1 evs).c.vesting = .none) by
    exact hs _ (.inl (new_ok hx).2.2.2.2.1)
  induction evs with
  | nil => exact fun _ h => h
  | cons ev t ih => exact fun w1 h1 => ih _ (foundation_step ev h1)

example : getOwnerAccountId demoStaked.c = "owner" ∧ demoStaked.c.foundation = some "fdn" ∧
    getStakingPoolAccountId demoStaked.c = some "pool" := by decide +kernel

/-- **C33.** In a history: a change of the contract state, a new receipt or an outgoing token is caused
only by an owner method called by the owner, a termination method called by the foundation, or a
callback of a promise that the contract itself created and that was executed. -/
theorem C33_every_change_is_authorized {cfg : Cfg} {w : World} (ev : Ev)
    (h : (step cfg w ev).c ≠ w.c ∨ (step cfg w ev).bal < w.bal ∨
      ∃ p ∈ (step cfg w ev).pend, ∀ q ∈ w.pend, p.ext ≠ q.ext) :
    (∃ c, ev = .call w.c.owner 0 (.owner c)) ∨
    (∃ f c, w.c.foundation = some f ∧ ev = .call f 0 (.foundation c)) ∨
    (∃ i ext cb r, ev = .callback i ∧ w.pend[i]? = some ⟨ext, some cb, .done r⟩) := by
  have quiet : ∀ w' : World, w'.c = w.c → w.bal ≤ w'.bal → (∀ p ∈ w'.pend, ∃ q ∈ w.pend,
      p.ext = q.ext) → ¬ (w'.c ≠ w.c ∨ w'.bal < w.bal ∨
        ∃ p ∈ w'.pend, ∀ q ∈ w.pend, p.ext ≠ q.ext) := by
    rintro w' h1 h2 h3 (h | h | ⟨p, hp, h⟩)
    · exact h h1
    · omega
    · obtain ⟨q, hq, h4⟩ := h3 p hp
      exact h q hq h4
  have self : ∀ p ∈ w.pend, ∃ q ∈ w.pend, p.ext = q.ext := fun p hp => ⟨p, hp, rfl⟩
  cases ev with
  | call who att c =>
    by_cases hself : who = cfg.self
    · simp only [step, if_pos hself] at h
      exact absurd h (quiet w rfl (Nat.le_refl _) self)
    simp only [step, if_neg hself, doCall] at h
    cases hx : exec (mkEnv cfg w who att none) w.c c with
    | error m => rw [hx] at h; exact absurd h (quiet w rfl (Nat.le_refl _) self)
    | ok res =>
      obtain ⟨c', eff⟩ := res
      obtain ⟨g1, g2, g3⟩ := C33_authorization hx
      have hatt : att = 0 := g1
      subst hatt
      cases c with
      | owner c => exact .inl ⟨c, by rw [show who = w.c.owner from g3]⟩
      | foundation c => exact .inr (.inl ⟨who, c, g3, rfl⟩)
      | callback c => exact absurd g3 hself
  | execute i r =>
    exfalso
    simp only [step, execute] at h
    cases hi : w.pend[i]? with
    | none => rw [hi] at h; exact quiet w rfl (Nat.le_refl _) self h
    | some p =>
      obtain ⟨ext, cb, ph⟩ := p
      cases ph with
      | done r' => rw [hi] at h; exact quiet w rfl (Nat.le_refl _) self h
      | sent =>
        rw [hi] at h
        have hm := mem_of_getElem?' hi
        obtain ⟨f1, _, f3, _⟩ := runExt_facts cfg w ⟨ext, cb, .sent⟩ r
        cases cb with
        | none =>
          refine quiet _ ?_ ?_ ?_ h
          · exact f1
          · simp only [f3]; exact Nat.le_refl _
          · exact fun p hp => ⟨p, mem_of_mem_eraseIdx' hp, rfl⟩
        | some cb =>
          refine quiet _ ?_ ?_ ?_ h
          · exact f1
          · simp only [f3]; exact Nat.le_refl _
          · intro p hp
            rcases mem_set_cases hp with hp | rfl
            · exact ⟨p, hp, rfl⟩
            · exact ⟨_, hm, rfl⟩
  | callback i =>
    simp only [step, callback] at h
    cases hi : w.pend[i]? with
    | none => rw [hi] at h; exact absurd h (quiet w rfl (Nat.le_refl _) self)
    | some p =>
      obtain ⟨ext, cb, ph⟩ := p
      cases cb with
      | none => rw [hi] at h; exact absurd h (quiet w rfl (Nat.le_refl _) self)
      | some cb =>
        cases ph with
        | sent => rw [hi] at h; exact absurd h (quiet w rfl (Nat.le_refl _) self)
        | done r => exact .inr (.inr ⟨i, ext, cb, r, rfl, hi⟩)
  | arrive x =>
    exfalso
    simp only [step] at h
    split at h
    · exact quiet { w with incoming := w.incoming - x, bal := w.bal + x } rfl
        (Nat.le_add_right _ _) self h
    · exact quiet w rfl (Nat.le_refl _) self h
  | income x => exact absurd h (quiet _ rfl (Nat.le_add_right _ _) self)
  | tick x => exact absurd h (quiet _ rfl (Nat.le_refl _) self)
  | poolReward x => exact absurd h (quiet _ rfl (Nat.le_refl _) self)
  | poolLoss x =>
    exfalso
    simp only [step] at h
    split at h
    · exact quiet { w with held := w.held - x, loss := w.loss + x } rfl (Nat.le_refl _) self h
    · exact quiet w rfl (Nat.le_refl _) self h

/-- the owner's and the foundation's calls change the demo lockup -/
example : (step demoCfg demoStaked (.call "owner" 0 (.owner (.stake 7)))).pend ≠ demoStaked.pend ∧
    (step demoCfg demoStaked (.call "eve" 0 (.owner (.stake 7)))).pend = demoStaked.pend := by
  constructor <;> decide +kernel

/-! ## C34 -/

/-- **C34.** A termination fixes exactly the amount that is unvested at that moment according to the
public schedule, leaves everything else alone, and does not change the locked amount. -/
theorem C34_termination_fixes_unvested {cfg : Cfg} {a : NewArgs} {w : World}
    (h : Reachable cfg a w) (hv : VestingOk cfg (argVesting a)) {vs : Schedule}
    (hvs : w.c.vesting = .schedule vs) {who : AccountId} {att : Nat} {arg : Option ScheduleWithSalt}
    {c' : Lockup} {eff : Option Eff}
    (hx : exec (mkEnv cfg w who att none) w.c (.foundation (.terminateVesting arg)) =
      .ok (c', eff)) :
    (∃ st, c' = { w.c with
      vesting := .terminating (specUnvested w.c.info.lockupAmount vs w.now) st }) ∧
    eff = none ∧ 0 < specUnvested w.c.info.lockupAmount vs w.now ∧
    ∀ e : Env, e.now = w.now → getLockedAmount e c' = getLockedAmount e w.c := by
  have hg := reachable_good h hv
  have hx' : execFoundation (mkEnv cfg w who att none) w.c (.terminateVesting arg) =
    .ok (c', eff) := hx
  obtain ⟨_, _, hr⟩ := execFoundation_rel hx'
  cases hr with
  | terminate arg vs' u st h1 h2 h3 h4 h5 =>
    have heq : vs' = vs := by
      rcases assertVesting_ok h1 with ⟨g, _⟩ | ⟨x, _, _, g⟩
      · rw [hvs] at g; cases g; rfl
      · rw [hvs] at g; cases g
    subst heq
    obtain ⟨_, g2, _, _, g5, g6⟩ := terminate_facts (cfg := cfg) rfl hg h1 h2 h3 st
    have hu : u = specUnvested w.c.info.lockupAmount vs' w.now := by
      rw [g2, unvestedVal_spec]; rfl
    refine ⟨⟨st, by rw [← hu]⟩, rfl, by rw [← hu]; exact h4, fun e he => ?_⟩
    rw [getLockedAmount_eq g5.1, getLockedAmount_eq hg.1, he]
    congr 1
    exact g6 ⟨_, hvs⟩

/-- **C34.** A successful payment to the foundation of `a` tokens lowers the locked amount by at least
`a`, evaluated at any time: the owner's liquid tokens (balance minus
locked amount) never shrink because of it. -/
theorem C34_payment_does_not_lock_more {cfg : Cfg} {args : NewArgs} {w : World}
    (h : Reachable cfg args w) (hv : VestingOk cfg (argVesting args)) {i a : Nat}
    {ext : Ext} {rc : AccountId} {r : PResult} (hr : r.isOk = true)
    (hp : w.pend[i]? = some ⟨ext, some (.onWithdrawUnvested a rc), .done r⟩) (e : Env) :
    ∃ l l', getLockedAmount e w.c = .ok l ∧ getLockedAmount e (step cfg w (.callback i)).c = .ok l' ∧
      l' + a ≤ l := by
  have hg := reachable_good h hv
  have hI := reachable_sinv h
  have hm := mem_of_getElem?' hp
  obtain ⟨u, hu⟩ := hI.need _ hm _ _ rfl rfl
  have hale : a ≤ u := by
    have h1 := hI.payLe _ hm
    simp only [payAmt, terminatedUnvested, hu] at h1
    exact h1
  have hlt : w.c.info.terminationWithdrawn + a < two128 := by
    have h1 := hI.amt
    have h2 := hg.1.wle
    simp only [terminatedUnvested, hu] at h2
    omega
  have hex : ∃ c', exec (mkEnv cfg { w with pend := w.pend.eraseIdx i } cfg.self 0 (some r)) w.c
      (.callback (.onWithdrawUnvested a rc)) = .ok (c', none) := by
    obtain ⟨g1, g2⟩ := env_self cfg { w with pend := w.pend.eraseIdx i } r
    have g3 : isPromiseSuccess (mkEnv cfg { w with pend := w.pend.eraseIdx i } cfg.self 0
      (some r)) = .ok r.isOk := by cases r <;> rfl
    simp only [exec, g1, ok_bind, execCallback, onWithdrawUnvested, g2, g3, hr, if_true,
      recordWithdrawn, addU128, if_pos hlt]
    split
    · exact ⟨_, rfl⟩
    · exact ⟨_, rfl⟩
  obtain ⟨c', hc⟩ := hex
  have hstep : (step cfg w (.callback i)).c = c' := by
    simp only [step, callback, hp, doCall, hc, effAttached, Nat.zero_le, if_true, commit]
  have hx' : execCallback (mkEnv cfg { w with pend := w.pend.eraseIdx i } cfg.self 0 (some r)) w.c
      (.onWithdrawUnvested a rc) = .ok (c', none) := by
    simp only [exec, bind_ok] at hc
    obtain ⟨_, _, hc⟩ := hc
    exact hc
  obtain ⟨_, r', hr', hrel⟩ := execCallback_rel hx'
  cases hr'
  rw [hstep]
  refine ⟨lockedVal w.c e.now, ?_⟩
  cases hrel with
  | paidSome a rc h1 h2 h3 =>
    simp only [terminatedUnvested, hu] at h3 ⊢
    obtain ⟨k1, k2⟩ := paidSome_facts (now := e.now) (st' := .readyToWithdraw) hg hu hale
    exact ⟨_, getLockedAmount_eq hg.1, getLockedAmount_eq k1.1, k2⟩
  | paidAll a rc h1 h2 h3 =>
    simp only [terminatedUnvested, hu] at h3
    have hau : a = u := Nat.le_antisymm hale h3
    obtain ⟨k1, k2⟩ := paidAll_facts (now := e.now) hg hu hau
    exact ⟨_, getLockedAmount_eq hg.1, getLockedAmount_eq k1.1, k2⟩
  | paidFailed a rc u old h1 h2 => rw [hr] at h1; cases h1
  | depositOk cb a' si h1 => rcases h1 with h1 | h1 <;> cases h1
  | depositFailed cb a' si h1 => rcases h1 with h1 | h1 <;> cases h1
  | stakeLike cb si h1 => rcases h1 with ⟨_, h1⟩ | ⟨_, h1⟩ | h1 <;> cases h1

/-- **C34.** After a completed termination of the fixed amount `F`, the locked amount is at every time
the unreleased part of the original lockup amount reduced by `F` (nothing is unvested any more). -/
theorem C34_locked_after_termination {cfg : Cfg} {a : NewArgs} {w : World} (h : Reachable cfg a w)
    (hv : VestingOk cfg (argVesting a)) {F t : Nat} (hF : w.fixedUnvested = some F)
    (hdone : w.c.vesting = .none) (ht : w.c.info.transfers = .enabled t) (e : Env)
    (hnow : e.now < two64 - 1) (hr : ReleaseInRange w.c) :
    getLockedAmount e w.c = .ok (
      (if e.now < specMoment t w.c.info.lockupDuration w.c.info.lockupTimestamp then
          w.c.info.lockupAmount
        else specUnreleased w.c.info.lockupAmount
          (specMoment t w.c.info.lockupDuration w.c.info.lockupTimestamp) e.now
          w.c.info.releaseDuration) - F) := by
  rw [C20_locked_amount_is_documented h hv e hnow hr]
  have hfix := (reachable_sinv h).fix
  rw [hF] at hfix
  obtain ⟨_, _, ⟨u, st, h1, _⟩ | ⟨_, _, h1⟩⟩ := hfix
  · rw [hdone] at h1; cases h1
  · unfold specLocked specUnvestedPart
    simp only [ht, hdone, h1]
    congr 1
    split
    · rfl
    · simp

/-- without a pool: all that is available (6.5 NEAR) is paid and the callback is pending -/
example : (run demoCfg (startOf demoArgs) [.call "fdn" 0 (.foundation (.terminateVesting none)),
      .call "fdn" 0 (.foundation (.terminationWithdraw "r")), .execute 0 .unit]).pend[0]? =
    some ⟨.transfer "r" 6500000000000000000000000,
      some (.onWithdrawUnvested 6500000000000000000000000 "r"), .done .unit⟩ := by decide +kernel

/-! ## C61 -/

/-- **C61.** A lockup created with the hash of a salted schedule `x0` can only be terminated with
exactly this schedule and salt, provided `sha256` has no second preimage of its encoding. The amount
to return is the unvested amount of `x0`. -/
theorem C61_private_schedule_binding {cfg : Cfg} {a : NewArgs} {w : World} (h : Reachable cfg a w)
    {x0 : ScheduleWithSalt} (hv : x0.schedule.Valid)
    (hx0 : x0.schedule.start < two64 ∧ x0.schedule.cliff < two64 ∧ x0.schedule.finish < two64)
    (ha : a.vesting = some (.hash (cfg.sha256 x0.borsh)))
    (hsha : ∀ b, cfg.sha256 b = cfg.sha256 x0.borsh → b = x0.borsh)
    {who : AccountId} {att : Nat} {arg : Option ScheduleWithSalt} {c' : Lockup} {eff : Option Eff}
    (hx : exec (mkEnv cfg w who att none) w.c (.foundation (.terminateVesting arg)) =
      .ok (c', eff)) :
    arg = some x0 ∧ eff = none ∧
    ∃ st, c'.vesting = .terminating (specUnvested w.c.info.lockupAmount x0.schedule w.now) st := by
  have hok : VestingOk cfg (argVesting a) := by
    unfold argVesting
    rw [ha]
    intro s h1 h2 h3 h4
    rw [borsh_inj ⟨h1, h2, h3⟩ hx0 (hsha _ h4)]
    exact hv
  have hg := reachable_good h hok
  have hx' : execFoundation (mkEnv cfg w who att none) w.c (.terminateVesting arg) =
    .ok (c', eff) := hx
  obtain ⟨_, _, hr⟩ := execFoundation_rel hx'
  cases hr with
  | terminate arg vs' u st h1 h2 h3 h4 h5 =>
    have hvest : w.c.vesting = .hash (cfg.sha256 x0.borsh) := by
      rcases vesting_origin h with h6 | ⟨u, st, h6⟩ | h6
      · rw [h6]; unfold argVesting; rw [ha]
      · unfold assertVesting at h1; simp [h6, throw_ok] at h1
      · unfold assertVesting at h1; simp [h6, throw_ok] at h1
    obtain ⟨_, g2, _⟩ := terminate_facts (cfg := cfg) rfl hg h1 h2 h3 st
    rcases assertVesting_ok h1 with ⟨g, _⟩ | ⟨x, rfl, rfl, g⟩
    · rw [hvest] at g; cases g
    · rw [hvest] at g
      have hh : cfg.sha256 x.borsh = cfg.sha256 x0.borsh := (Vesting.hash.inj g).symm
      have hxx := borsh_inj h2 hx0 (hsha _ hh)
      subst hxx
      exact ⟨rfl, rfl, st, by rw [g2, unvestedVal_spec]; rfl⟩

/-- the private demo lockup is terminated with its schedule; another salt is rejected -/
example : (run demoCfg (startOf privArgs)
      [.call "fdn" 0 (.foundation (.terminateVesting (some privSalted)))]).c.vesting.isTerminating =
      true ∧
    (run demoCfg (startOf privArgs)
      [.call "fdn" 0 (.foundation (.terminateVesting
        (some { privSalted with salt := [1, 2, 3, 4] })))]).c.vesting.isTerminating = false := by
  constructor <;> decide +kernel

end Verif.Lockup
