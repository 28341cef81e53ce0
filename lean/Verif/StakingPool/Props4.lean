import Verif.StakingPool.Props3

/-!
# Staking pool properties C12, C13, C14, C15, C18, C60: pausing, callbacks, administration, listing
-/

namespace Verif.StakingPool

open Verif

/-! ## C12 -/

theorem newReceipts_mem {effs : List Eff} {amt : Nat} {k : PublicKey} {cb : Bool} :
    Receipt.stakeAction amt k cb ∈ newReceipts effs ↔ Eff.stake amt k cb ∈ effs := by
  induction effs with
  | nil => simp [newReceipts]
  | cons e t ih =>
    cases e <;> simp [newReceipts, ih]

/-- **C12 (one call).** A successful call on a paused pool, other than the owner's `resume_staking`,
creates no stake action with a positive amount and leaves the pool paused. -/
theorem C12_paused_pool_does_not_stake {cfg : Cfg} {w : World} (h : Reachable cfg w)
    (hp : isStakingPaused w.pool = true) {a : AccountId} {d : Nat} {rs : List Bool} {c : Call}
    (hc : c ≠ .resumeStaking) {p : Pool} {effs : List Eff}
    (hx : exec (mkEnv cfg w a d rs) w.pool c = .ok (p, effs)) :
    isStakingPaused p = true ∧ ∀ amt k cb, Eff.stake amt k cb ∈ effs → amt = 0 := by
  obtain ⟨s0, hi⟩ := reachable_inv h
  obtain ⟨h1, h2⟩ := exec_stakes hi.pool hx
  have hp' : p.paused = true := by
    rcases h1 with h1 | ⟨_, h1, _⟩ | ⟨h1, _⟩
    · rw [h1]; exact hp
    · exact h1
    · exact absurd h1 hc
  refine ⟨hp', fun amt k cb hm => ?_⟩
  rcases (h2 amt k cb hm).2.2 with h3 | ⟨_, h3, _⟩
  · exact h3
  · rw [hp'] at h3; cases h3

/-- **C12 (pausing).** `pause_staking` emits exactly one promise: a stake action of zero with the
stored key; afterwards the pool is paused. -/
theorem C12_pause_unstakes_everything {cfg : Cfg} {w : World} {a : AccountId} {d : Nat}
    {rs : List Bool} {p : Pool} {effs : List Eff}
    (hx : exec (mkEnv cfg w a d rs) w.pool .pauseStaking = .ok (p, effs)) :
    a = getOwnerId w.pool ∧ isStakingPaused w.pool = false ∧ isStakingPaused p = true ∧
    effs = [.stake 0 (getStakingKey w.pool) false] := by
  simp only [exec, pauseStaking, bind_ok, notPayable_ok, assertOwner_ok, require_ok, pure_ok,
    Prod.exists, Prod.mk.injEq] at hx
  obtain ⟨_, h0, _, ho, _, hpz, s1, b, h1, _, hk, rfl, rfl⟩ := hx
  exact ⟨ho, hpz, rfl, by rw [show s1.stakePublicKey = w.pool.stakePublicKey from
    (pingRel_key (.inr ⟨b, h1⟩)).2]; rfl⟩

/-- **C12 (only the owner).** If one event changes the pause flag, it is a `pause_staking` or
`resume_staking` call by the owner. -/
theorem C12_only_owner_changes_pause {cfg : Cfg} {w : World} (h : Reachable cfg w) (ev : Ev)
    (hch : isStakingPaused (step cfg w ev).pool ≠ isStakingPaused w.pool) :
    ∃ d, (ev = .call (getOwnerId w.pool) d .pauseStaking ∧
            isStakingPaused (step cfg w ev).pool = true) ∨
         (ev = .call (getOwnerId w.pool) d .resumeStaking ∧
            isStakingPaused (step cfg w ev).pool = false) := by
  obtain ⟨s0, hi⟩ := reachable_inv h
  have hr := step_rel cfg w ev
  generalize step cfg w ev = w' at hr hch ⊢
  cases hr with
  | env h1 => rw [h1] at hch; exact absurd rfl hch
  | callback => exact absurd rfl hch
  | @call who att c p effs he _ hx =>
    subst he
    rcases (exec_stakes hi.pool hx).1 with h1 | ⟨rfl, h1, h2⟩ | ⟨rfl, h1, h2⟩
    · exact absurd h1 hch
    · have h3 : who = getOwnerId w.pool := h2
      rw [← h3]
      exact ⟨att, .inl ⟨rfl, h1⟩⟩
    · have h3 : who = getOwnerId w.pool := h2
      rw [← h3]
      exact ⟨att, .inr ⟨rfl, h1⟩⟩

/-- The event is a `resume_staking` call. -/
def Ev.isResume : Ev → Prop
  | .call _ _ .resumeStaking => True
  | _ => False

theorem step_paused {cfg : Cfg} {s0 : Nat} {w : World} (hi : WInv cfg s0 w)
    (hp : w.pool.paused = true) {ev : Ev} (hn : ¬ ev.isResume) :
    (step cfg w ev).pool.paused = true ∧
    ∀ amt k cb, 0 < amt → Receipt.stakeAction amt k cb ∈ (step cfg w ev).receipts →
      Receipt.stakeAction amt k cb ∈ w.receipts := by
  cases ev with
  | call who att c =>
    simp only [step]
    split
    · exact ⟨hp, fun _ _ _ _ hm => hm⟩
    · unfold doCall
      split
      · rename_i p effs hx
        have hc : c ≠ .resumeStaking := by rintro rfl; exact hn trivial
        obtain ⟨h1, h2⟩ := exec_stakes hi.pool hx
        have hp' : p.paused = true := by
          rcases h1 with h1 | ⟨_, h1, _⟩ | ⟨h1, _⟩
          · rw [h1]; exact hp
          · exact h1
          · exact absurd h1 hc
        refine ⟨hp', fun amt k cb h0 hm => ?_⟩
        simp only [commit, List.mem_append, newReceipts_mem] at hm
        rcases hm with hm | hm
        · exact hm
        · rcases (h2 amt k cb hm).2.2 with h3 | ⟨_, h3, _⟩
          · omega
          · rw [hp'] at h3; cases h3
      · exact ⟨hp, fun _ _ _ _ hm => hm⟩
  | deliver i ok =>
    simp only [step, deliver]
    split
    · exact ⟨hp, fun _ _ _ _ hm => hm⟩
    · split
      · refine ⟨hp, fun amt k cb h0 hm => ?_⟩
        simp only [List.mem_append] at hm
        rcases hm with hm | hm
        · exact List.mem_of_mem_eraseIdx hm
        · split at hm <;> simp at hm
      · refine ⟨hp, fun amt k cb h0 hm => ?_⟩
        simp only [List.mem_append] at hm
        rcases hm with hm | hm
        · exact List.mem_of_mem_eraseIdx hm
        · split at hm <;> simp at hm
    · unfold doCall
      split
      · rename_i p effs hx
        obtain ⟨h1, h2⟩ := exec_stakes (s0 := s0) hi.pool hx
        have h3 := (onStakeAction_state hx).1
        subst h3
        refine ⟨hp, fun amt k cb h0 hm => ?_⟩
        simp only [commit, List.mem_append, newReceipts_mem] at hm
        rcases hm with hm | hm
        · exact List.mem_of_mem_eraseIdx hm
        · rcases (h2 amt k cb hm).2.2 with h3 | ⟨_, h3, _⟩
          · omega
          · simp only at h3; rw [hp] at h3; cases h3
      · exact ⟨hp, fun amt k cb h0 hm => List.mem_of_mem_eraseIdx hm⟩
  | reward r => exact ⟨hp, fun _ _ _ _ hm => hm⟩
  | unlock x =>
    simp only [step]
    split
    · exact ⟨hp, fun _ _ _ _ hm => hm⟩
    · exact ⟨hp, fun _ _ _ _ hm => hm⟩
  | income r => exact ⟨hp, fun _ _ _ _ hm => hm⟩
  | epochs n => exact ⟨hp, fun _ _ _ _ hm => hm⟩

/-- **C12 (history).** Once paused, and until somebody calls `resume_staking`, the pool stays paused
and every outstanding stake action with a positive amount was already outstanding at the moment the
pool was found paused: the pool creates no new one, whatever anybody does. -/
theorem C12_no_new_stake_while_paused {cfg : Cfg} {w : World} (h : Reachable cfg w)
    (hp : isStakingPaused w.pool = true) (evs : List Ev) (hn : ∀ ev ∈ evs, ¬ ev.isResume) :
    isStakingPaused (run cfg w evs).pool = true ∧
    ∀ amt k cb, 0 < amt → Receipt.stakeAction amt k cb ∈ (run cfg w evs).receipts →
      Receipt.stakeAction amt k cb ∈ w.receipts := by
  obtain ⟨s0, hi⟩ := reachable_inv h
  clear h
  induction evs generalizing w with
  | nil => exact ⟨hp, fun _ _ _ _ hm => hm⟩
  | cons ev t ih =>
    obtain ⟨h1, h2⟩ := step_paused hi hp (hn ev (by simp))
    obtain ⟨h3, h4⟩ := ih h1 (fun e he => hn e (by simp [he])) (step_inv hi ev)
    exact ⟨h3, fun amt k cb h0 hm => h2 amt k cb h0 (h4 amt k cb h0 hm)⟩

/-- The paused demo pool: Bob's stake call still works but creates no stake action. -/
example :
    let w := run demoCfg demo [.call "owner.near" 0 .pauseStaking]
    let evs := [Ev.call "bob.near" 100 .depositAndStake, .deliver 0 true, .epochs 1,
      .call "carol.near" 0 .ping]
    Reachable demoCfg w ∧ isStakingPaused w.pool = true ∧
    (exec (mkEnv demoCfg demo "owner.near" 0 []) demo.pool .pauseStaking).isOk = true ∧
    (exec (mkEnv demoCfg w "bob.near" 100 []) w.pool .depositAndStake).isOk = true ∧
    (∀ ev ∈ evs, ¬ ev.isResume) ∧
    isStakingPaused (step demoCfg demo (.call "owner.near" 0 .pauseStaking)).pool ≠
      isStakingPaused demo.pool := by
  refine ⟨demo_reachable.run _, by decide +kernel, by decide +kernel, by decide +kernel, ?_,
    by decide +kernel⟩
  simp [Ev.isResume]

/-! ## C13 -/

/-- **C13 (only the contract itself).** `on_stake_action` panics for every other caller. -/
theorem C13_callback_is_private {cfg : Cfg} {w : World} {a : AccountId} (ha : a ≠ cfg.self)
    (d : Nat) (rs : List Bool) :
    ∃ msg, exec (mkEnv cfg w a d rs) w.pool .onStakeAction = .error msg := by
  cases hx : exec (mkEnv cfg w a d rs) w.pool .onStakeAction with
  | error m => exact ⟨m, rfl⟩
  | ok r =>
    exfalso
    simp only [exec, onStakeAction, bind_ok, notPayable_ok, require_ok] at hx
    obtain ⟨_, _, _, h1, _⟩ := hx
    exact ha h1.symm

/-- **C13 (what the callback does).** When the runtime delivers the result of a stake action, the
contract state is unchanged; a zero stake with the stored key is created exactly when the stake
action failed and tokens are locked; otherwise nothing. (The stored key is valid unless the pool is
paused, see `C13_key_valid`.) -/
theorem C13_failed_stake_is_unstaked {cfg : Cfg} {w : World} (succeeded : Bool)
    (hk : cfg.validPublicKey (getStakingKey w.pool) = true) :
    exec (mkEnv cfg w cfg.self 0 [succeeded]) w.pool .onStakeAction =
      .ok (w.pool,
        if succeeded = false ∧ 0 < w.locked then [.stake 0 (getStakingKey w.pool) false] else []) := by
  have hk' : cfg.validPublicKey w.pool.stakePublicKey = true := hk
  cases succeeded <;> by_cases hl : 0 < w.locked <;>
    simp [exec, onStakeAction, notPayable, require, mkEnv, hl, hk', getStakingKey, bind,
      Except.bind, pure, Except.pure]

/-- **C13 (key validity).** In every reachable state that is not paused the stored staking key is
one the runtime accepts. -/
theorem C13_key_valid {cfg : Cfg} {w : World} (h : Reachable cfg w)
    (hp : isStakingPaused w.pool = false) : cfg.validPublicKey (getStakingKey w.pool) = true := by
  obtain ⟨s0, hi⟩ := reachable_inv h
  rcases hi.key with h1 | h1
  · rw [show w.pool.paused = false from hp] at h1; cases h1
  · exact h1

example : Reachable demoCfg demo ∧ isStakingPaused demo.pool = false ∧ 0 < demo.locked ∧
    demoCfg.validPublicKey (getStakingKey demo.pool) = true ∧ "bob.near" ≠ demoCfg.self :=
  ⟨demo_reachable, by decide +kernel, by decide +kernel, by decide +kernel, by decide +kernel⟩

/-! ## C14 -/

/-- Methods reserved to the owner. -/
def Call.isAdmin : Call → Prop
  | .updateStakingKey _ | .updateRewardFeeFraction _ | .vote _ _ | .pauseStaking
  | .resumeStaking => True
  | _ => False

/-- **C14 (reserved).** In any state, an administrative call by anybody but the owner panics, so the
event changes nothing at all. -/
theorem C14_admin_methods_are_owner_only {cfg : Cfg} {w : World} {a : AccountId}
    (ha : a ≠ getOwnerId w.pool) {c : Call} (hc : c.isAdmin) (d : Nat) :
    (∀ rs, ∃ msg, exec (mkEnv cfg w a d rs) w.pool c = .error msg) ∧
    step cfg w (.call a d c) = w := by
  have key : ∀ rs, ∃ msg, exec (mkEnv cfg w a d rs) w.pool c = .error msg := by
    intro rs
    cases hx : exec (mkEnv cfg w a d rs) w.pool c with
    | error m => exact ⟨m, rfl⟩
    | ok r =>
      exfalso
      cases c with
      | updateStakingKey k =>
        simp only [exec, updateStakingKey, bind_ok, notPayable_ok, assertOwner_ok] at hx
        obtain ⟨_, _, _, ho, _⟩ := hx
        exact ha ho
      | updateRewardFeeFraction f =>
        simp only [exec, updateRewardFeeFraction, bind_ok, notPayable_ok, assertOwner_ok] at hx
        obtain ⟨_, _, _, _, _, ho, _⟩ := hx
        exact ha ho
      | vote a b =>
        simp only [exec, vote, bind_ok, notPayable_ok, assertOwner_ok] at hx
        obtain ⟨_, _, _, ho, _⟩ := hx
        exact ha ho
      | pauseStaking =>
        simp only [exec, pauseStaking, bind_ok, notPayable_ok, assertOwner_ok] at hx
        obtain ⟨_, _, _, ho, _⟩ := hx
        exact ha ho
      | resumeStaking =>
        simp only [exec, resumeStaking, bind_ok, notPayable_ok, assertOwner_ok] at hx
        obtain ⟨_, _, _, ho, _⟩ := hx
        exact ha ho
      | _ => exact hc
  refine ⟨key, ?_⟩
  obtain ⟨m, hm⟩ := key []
  simp only [step, doCall, hm]
  split <;> rfl

/-- **C14 (constant owner, valid fee).** Over every history from initialization with owner `owner`,
the owner is still `owner` and the fee fraction has a non-zero denominator and is at most one. -/
theorem C14_owner_constant_and_fee_valid {cfg : Cfg} {deployer owner : AccountId} {key : PublicKey}
    {fee : Fee} {balance epoch : Nat} {p : Pool} {effs : List Eff}
    (hg : guaranteeFund < balance) (hlt : balance < two128)
    (hn : new (initEnv cfg deployer balance epoch) false owner key fee = .ok (p, effs))
    (evs : List Ev) :
    let w := run cfg (initWorld p effs balance epoch) evs
    getOwnerId w.pool = owner ∧
    (getRewardFeeFraction w.pool).denominator ≠ 0 ∧
    (getRewardFeeFraction w.pool).numerator ≤ (getRewardFeeFraction w.pool).denominator := by
  intro w
  have hs : Started cfg (initWorld p effs balance epoch) :=
    ⟨deployer, owner, key, fee, balance, epoch, p, effs, hg, hlt, hn, rfl⟩
  obtain ⟨b, _, hi, _⟩ := started_inv hs
  have hf := (run_inv hi evs).pool.fee
  refine ⟨?_, hf.nonzero, hf.le⟩
  have ho := run_owner hi evs
  simp only [new, bind_ok, require_ok, subU_ok, Fee.assertValid_ok, Fee.decode_ok, pure_ok,
    Prod.mk.injEq, initEnv] at hn
  obtain ⟨_, _, _, _, _, _, _, _, _, _, _, ⟨_, rfl⟩, _, _, effs1, h2, rfl, rfl⟩ := hn
  exact ho

example : "bob.near" ≠ getOwnerId demo.pool ∧ Call.isAdmin .pauseStaking ∧
    guaranteeFund < 30 * 10 ^ 24 ∧ 30 * 10 ^ 24 < two128 ∧
    (new (initEnv demoCfg "factory.near" (30 * 10 ^ 24) 7) false "owner.near" "key" ⟨1, 10⟩).isOk =
      true := by
  refine ⟨by decide +kernel, trivial, ?_, ?_, by decide +kernel⟩
  · unfold guaranteeFund; norm_num
  · unfold two128; norm_num

/-! ## C15 -/

/-- The view record of an account. -/
def viewOf (ep : Nat) (s : Pool) (a : AccountId) : HumanAccount :=
  ⟨a, (getAcc s a).unstaked, stakedOf s a, decide ((getAcc s a).unstakedAvailableEpoch ≤ ep)⟩

theorem mapM_view {s0 : Nat} {s : Pool} (hi : PoolInv s0 s) (ep : Nat) (l : List AccountId) :
    l.mapM (getAccount ep s) = .ok (l.map (viewOf ep s)) := by
  induction l with
  | nil => rfl
  | cons a t ih =>
    rw [List.mapM_cons, getAccount_total hi, ih]
    rfl

theorem getAccounts_total {s0 : Nat} {s : Pool} (hi : PoolInv s0 s) (ep i k : Nat)
    (h : i + k < two64) :
    getAccounts ep s i k =
      .ok (((s.accounts.keys.take (min (i + k) s.accounts.keys.length)).drop i).map
        (viewOf ep s)) := by
  simp only [getAccounts, bind_ok, addU64_ok]
  exact ⟨_, ⟨h, rfl⟩, mapM_view hi ep _⟩

theorem pages_concat {α : Type} (l : List α) (k m : Nat) :
    (List.range m).flatMap
      (fun i => ((l.take (min (i * k + k) l.length)).drop (i * k))) = l.take (m * k) := by
  induction m with
  | zero => simp
  | succ m ih =>
    rw [List.range_succ, List.flatMap_append, ih]
    simp only [List.flatMap_cons, List.flatMap_nil, List.append_nil]
    have h1 : l.take (min (m * k + k) l.length) = l.take (m * k + k) := by
      rw [List.take_eq_take_iff]; omega
    rw [h1, Nat.succ_mul]
    have h2 : l.take (m * k) = (l.take (m * k + k)).take (m * k) := by
      rw [List.take_take]; congr 1; omega
    rw [h2, List.take_append_drop]

/-- **C15.** With page size `k > 0` and enough pages (`m * k` at least the number of accounts), in
every reachable state all page queries `get_accounts(i*k, k)`, `i < m`, succeed and their
concatenation: has as many entries as `get_number_of_accounts`; lists no account twice; contains for
each listed account exactly what `get_account` returns; and lists an account if and only if its
unstaked balance or its staked balance is positive. -/
theorem C15_listing_complete {cfg : Cfg} {w : World} (h : Reachable cfg w) (k m : Nat)
    (hm : getNumberOfAccounts w.pool ≤ m * k) (hlt : m * k < two64) :
    ∃ pages : List (List HumanAccount),
      (List.range m).mapM (fun i => getAccounts w.epoch w.pool (i * k) k) = .ok pages ∧
      pages.flatten.length = getNumberOfAccounts w.pool ∧
      (pages.flatten.map HumanAccount.accountId).Nodup ∧
      (∀ r ∈ pages.flatten, getAccount w.epoch w.pool r.accountId = .ok r) ∧
      (∀ a acc, getAccount w.epoch w.pool a = .ok acc →
        ((∃ r ∈ pages.flatten, r.accountId = a) ↔
          0 < acc.unstakedBalance ∨ 0 < acc.stakedBalance)) := by
  obtain ⟨s0, hi⟩ := reachable_inv h
  let page := fun i => ((w.pool.accounts.keys.take
    (min (i * k + k) w.pool.accounts.keys.length)).drop (i * k)).map (viewOf w.epoch w.pool)
  have hall : ∀ l : List Nat, (∀ i ∈ l, i < m) →
      l.mapM (fun i => getAccounts w.epoch w.pool (i * k) k) = .ok (l.map page) := by
    intro l
    induction l with
    | nil => intro _; rfl
    | cons i t ih =>
      intro hl
      have hik : i * k + k < two64 := by
        have h1 : i + 1 ≤ m := hl i (by simp)
        have h2 := Nat.mul_le_mul_right k h1
        rw [Nat.succ_mul] at h2
        omega
      rw [List.mapM_cons, getAccounts_total hi.pool _ _ _ hik, ih (fun j hj => hl j (by simp [hj]))]
      rfl
  have hflat : ((List.range m).map page).flatten =
      w.pool.accounts.keys.map (viewOf w.epoch w.pool) := by
    have h1 := pages_concat w.pool.accounts.keys k m
    have h2 : w.pool.accounts.keys.take (m * k) = w.pool.accounts.keys := by
      rw [List.take_eq_self_iff, ← UMap.len_eq_keys]; exact hm
    rw [h2] at h1
    conv_rhs => rw [← h1]
    rw [List.map_flatMap]
    rfl
  refine ⟨(List.range m).map page, hall _ (by simp), ?_⟩
  rw [hflat]
  refine ⟨?_, ?_, ?_, ?_⟩
  · simp [getNumberOfAccounts, UMap.len_eq_keys]
  · rw [List.map_map]
    have : (HumanAccount.accountId ∘ viewOf w.epoch w.pool) = id := rfl
    rw [this, List.map_id]
    exact UMap.keys_nodup _
  · intro r hr
    simp only [List.mem_map] at hr
    obtain ⟨a, _, rfl⟩ := hr
    exact getAccount_total hi.pool _ a
  · intro a acc hacc
    rw [getAccount_total hi.pool] at hacc
    cases hacc
    simp only
    have hmem : (∃ r ∈ w.pool.accounts.keys.map (viewOf w.epoch w.pool), r.accountId = a) ↔
        a ∈ w.pool.accounts.keys := by
      constructor
      · rintro ⟨r, hr, rfl⟩
        simp only [List.mem_map] at hr
        obtain ⟨b, hb, rfl⟩ := hr
        exact hb
      · intro ha
        exact ⟨viewOf w.epoch w.pool a, List.mem_map.mpr ⟨a, ha, rfl⟩, rfl⟩
    rw [hmem, UMap.mem_keys]
    constructor
    · rintro ⟨v, hv⟩
      have hg : getAcc w.pool a = v := by unfold getAcc; rw [hv]; rfl
      rcases hi.pool.nonempty a v hv with h1 | h1
      · left; rw [hg]; exact h1
      · right
        have hsh : 0 < (getAcc w.pool a).stakeShares := by rw [hg]; exact h1
        exact (stakedOf_pos hi.pool a).mpr hsh
    · intro hpos
      cases hv : w.pool.accounts.get a with
      | some v => exact ⟨v, rfl⟩
      | none =>
        exfalso
        have hg : getAcc w.pool a = Account.default := by unfold getAcc; rw [hv]; rfl
        unfold stakedOf at hpos
        rw [hg] at hpos
        simp [Account.default] at hpos

example : Reachable demoCfg demo ∧ getNumberOfAccounts demo.pool = 3 ∧
    getNumberOfAccounts demo.pool ≤ 2 * 2 ∧ 2 * 2 < two64 :=
  ⟨demo_reachable, by decide +kernel, by decide +kernel, by decide +kernel⟩

/-! ## C18 -/

/-- **C18 (deposit_and_stake).** `deposit_and_stake` with `d` attached succeeds exactly when
`deposit` with `d` attached followed by `stake(d)` in the same epoch does, with the same resulting
contract state and the same stake promise as the second call. -/
theorem C18_deposit_and_stake {cfg : Cfg} {w : World} (h : Reachable cfg w) (a : AccountId)
    (d : Nat) (p : Pool) (effs : List Eff) :
    exec (mkEnv cfg w a d []) w.pool .depositAndStake = .ok (p, effs) ↔
    ∃ p1 effs1, exec (mkEnv cfg w a d []) w.pool .deposit = .ok (p1, effs1) ∧
      exec (mkEnv cfg (commit w a d .deposit p1 effs1) a 0 []) p1 (.stake d) = .ok (p, effs) := by
  obtain ⟨s0, hi⟩ := reachable_inv h
  have estake : ∀ (v : World) (s : Pool),
      internalStake (mkEnv cfg v a 0 []) s d = internalStake (mkEnv cfg w a d []) s d :=
    fun _ _ => rfl
  have erestake : ∀ (v : World) (s : Pool),
      internalRestake (mkEnv cfg v a 0 []) s = internalRestake (mkEnv cfg w a d []) s :=
    fun _ _ => rfl
  have hep : ∀ {s1 s2 : Pool} {b : Bool} {x : Nat},
      internalPing (mkEnv cfg w a d []) w.pool = .ok (s1, b) →
      internalDeposit (mkEnv cfg w a d []) s1 = .ok (s2, x) →
      x = d ∧ s2.lastEpochHeight = w.epoch := by
    intro s1 s2 b x h1 h2
    obtain ⟨of, hx, _⟩ := deposit_facts (ping_facts hi.pool h1).inv h2
    refine ⟨hx, of.lastEpoch.trans ?_⟩
    rcases ping_exact h1 with ⟨h3, rfl, _⟩ | ⟨_, _, h3⟩ <;> exact h3
  constructor
  · intro hx
    simp only [exec, depositAndStake, bind_ok, pure_ok, Prod.exists, Prod.mk.injEq] at hx
    obtain ⟨s1, b, h1, s2, x, h2, s3, h3, effs1, h4, rfl, rfl⟩ := hx
    obtain ⟨rfl, hlast⟩ := hep h1 h2
    have hpf := ping_facts hi.pool h1
    have of := (deposit_facts hpf.inv h2).1
    have hkey : s2.paused = true ∨ cfg.validPublicKey s2.stakePublicKey = true := by
      rw [of.paused, of.key, hpf.paused, hpf.key]; exact hi.key
    obtain ⟨effs2, h5⟩ := restakeIf_total (e := mkEnv cfg w a x []) (s := s2) b hkey
    refine ⟨s2, effs2, ?_, ?_⟩
    · simp only [exec, deposit, bind_ok, pure_ok, Prod.exists, Prod.mk.injEq]
      exact ⟨s1, b, h1, s2, x, h2, effs2, h5, rfl, rfl⟩
    · simp only [exec, stake, bind_ok, notPayable_ok, pure_ok, Prod.exists, Prod.mk.injEq]
      exact ⟨(), rfl, s2, false, internalPing_ok.mpr (.inl ⟨hlast, rfl, rfl⟩), s3,
        (estake _ _).trans h3, effs1, (erestake _ _).trans h4, rfl, rfl⟩
  · rintro ⟨p1, effs1, hd, hs⟩
    simp only [exec, deposit, bind_ok, pure_ok, Prod.exists, Prod.mk.injEq] at hd
    obtain ⟨s1, b, h1, s2, x, h2, effs0, h5, rfl, rfl⟩ := hd
    obtain ⟨rfl, hlast⟩ := hep h1 h2
    simp only [exec, stake, bind_ok, notPayable_ok, pure_ok, Prod.exists, Prod.mk.injEq] at hs
    obtain ⟨_, _, s3, b', h6, s4, h7, effs2, h8, rfl, rfl⟩ := hs
    have h9 : internalPing (mkEnv cfg (commit w a x .deposit s2 effs0) a 0 []) s2 =
        .ok (s2, false) := internalPing_ok.mpr (.inl ⟨hlast, rfl, rfl⟩)
    rw [h9] at h6
    cases h6
    simp only [exec, depositAndStake, bind_ok, pure_ok, Prod.exists, Prod.mk.injEq]
    exact ⟨s1, b, h1, s2, x, h2, s4, (estake _ _).symm.trans h7, effs2,
      (erestake _ _).symm.trans h8, rfl, rfl⟩

/-- **C18 (the `_all` variants).** For an account with reported unstaked balance `u`,
`withdraw_all` is `withdraw(u)` and `stake_all` is `stake(u)`: same result, same effects, same
panics. If rewards were already distributed in this epoch, `unstake_all` is `unstake(v)` with `v`
the reported staked balance. -/
theorem C18_all_variants {cfg : Cfg} {w : World} (h : Reachable cfg w) (a : AccountId) (d : Nat)
    {acc : HumanAccount} (hacc : getAccount w.epoch w.pool a = .ok acc) :
    exec (mkEnv cfg w a d []) w.pool .withdrawAll =
      exec (mkEnv cfg w a d []) w.pool (.withdraw acc.unstakedBalance) ∧
    exec (mkEnv cfg w a d []) w.pool .stakeAll =
      exec (mkEnv cfg w a d []) w.pool (.stake acc.unstakedBalance) ∧
    (w.pool.lastEpochHeight = w.epoch →
      exec (mkEnv cfg w a d []) w.pool .unstakeAll =
        exec (mkEnv cfg w a d []) w.pool (.unstake acc.stakedBalance)) := by
  obtain ⟨s0, hi⟩ := reachable_inv h
  rw [getAccount_total hi.pool] at hacc
  cases hacc
  simp only [exec]
  refine ⟨?_, ?_, ?_⟩
  · unfold withdrawAll withdraw
    cases hp : internalPing (mkEnv cfg w a d []) w.pool with
    | error m => rfl
    | ok r =>
      obtain ⟨s1, b⟩ := r
      have hu := (ping_facts hi.pool hp).unstaked a
      simp only [bind, Except.bind]
      rw [show (mkEnv cfg w a d []).predecessor = a from rfl, hu]
  · unfold stakeAll stake
    cases hp : internalPing (mkEnv cfg w a d []) w.pool with
    | error m => rfl
    | ok r =>
      obtain ⟨s1, b⟩ := r
      have hu := (ping_facts hi.pool hp).unstaked a
      simp only [bind, Except.bind]
      rw [show (mkEnv cfg w a d []).predecessor = a from rfl, hu]
  · intro he
    unfold unstakeAll unstake
    have hp : internalPing (mkEnv cfg w a d []) w.pool = .ok (w.pool, false) :=
      internalPing_ok.mpr (.inl ⟨he, rfl, rfl⟩)
    rw [hp]
    simp only [bind, Except.bind]
    rw [show (mkEnv cfg w a d []).predecessor = a from rfl, stakedAmountDown_total hi.pool a]

example : Reachable demoCfg demo ∧ demo.pool.lastEpochHeight = demo.epoch ∧
    (exec (mkEnv demoCfg demo "bob.near" 777 []) demo.pool .depositAndStake).isOk = true ∧
    (exec (mkEnv demoCfg demo "bob.near" 0 []) demo.pool .withdrawAll).isOk = true ∧
    (exec (mkEnv demoCfg demo "bob.near" 0 []) demo.pool .stakeAll).isOk = true ∧
    (exec (mkEnv demoCfg demo "alice.near" 0 []) demo.pool .unstakeAll).isOk = true :=
  ⟨demo_reachable, by decide +kernel, by decide +kernel, by decide +kernel, by decide +kernel,
   by decide +kernel⟩

/-! ## C60 -/

/-- **C60.** Every stake action the pool creates with a positive amount asks for exactly the total
staked balance it reports at that moment, with its stored valid key and with the recovery callback
attached; and within the guarantee fund (at most `10^12` rounding operations) the tokens on the
account cover it, so the runtime can execute it right away. -/
theorem C60_stake_actions_are_covered {cfg : Cfg} {w : World} (h : Reachable cfg w)
    {a : AccountId} (ha : a ≠ cfg.self) {d : Nat} {c : Call} {p : Pool} {effs : List Eff}
    (hx : exec (mkEnv cfg w a d []) w.pool c = .ok (p, effs))
    {amt : Nat} {k : PublicKey} {cb : Bool} (hm : Eff.stake amt k cb ∈ effs) (h0 : 0 < amt) :
    amt = getTotalStakedBalance p ∧ k = getStakingKey p ∧ cfg.validPublicKey k = true ∧ cb = true ∧
    ((step cfg w (.call a d c)).roundings ≤ guaranteeFund →
      amt ≤ (step cfg w (.call a d c)).liquid + (step cfg w (.call a d c)).locked) := by
  obtain ⟨s0, hi⟩ := reachable_inv h
  have hstep : step cfg w (.call a d c) = commit w a d c p effs := by
    simp only [step, if_neg ha, doCall, hx]
  obtain ⟨h1, h2, h3⟩ := (exec_stakes hi.pool hx).2 amt k cb hm
  rcases h3 with h3 | ⟨h3, _, h5⟩
  · omega
  · refine ⟨h3, h2, h1, h5, fun hr => ?_⟩
    have hi' : WInv cfg s0 (step cfg w (.call a d c)) := step_inv hi _
    have h6 := hi'.solv
    have h7 := hi'.cover
    have h8 : (step cfg w (.call a d c)).pool.totalStakedBalance = amt := by rw [hstep, h3]; rfl
    omega

example :
    Reachable demoCfg demo ∧ "bob.near" ≠ demoCfg.self ∧
    (step demoCfg demo (.call "bob.near" 777 .depositAndStake)).roundings ≤ 1000000000000 ∧
    (match exec (mkEnv demoCfg demo "bob.near" 777 []) demo.pool .depositAndStake with
      | .ok (_, [.stake amt _ true]) => decide (0 < amt)
      | _ => false) = true :=
  ⟨demo_reachable, by decide +kernel, by decide +kernel, by decide +kernel⟩

end Verif.StakingPool
