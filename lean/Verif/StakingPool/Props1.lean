import Verif.StakingPool.Demo

/-!
# Staking pool properties C01, C02, C03, C06, C16: value of a position and solvency

Statements use the public views, the calls and the token balances; histories are arbitrary.
-/

namespace Verif.StakingPool

open Verif

theorem reachable_inv {cfg : Cfg} {w : World} (h : Reachable cfg w) : ∃ s0, WInv cfg s0 w := by
  obtain ⟨w0, evs, hs, rfl⟩ := h
  obtain ⟨b, _, hi, _⟩ := started_inv hs
  exact ⟨_, run_inv hi evs⟩

theorem step_shares_mono {cfg : Cfg} {s0 : Nat} {w : World} (h : WInv cfg s0 w) {ev : Ev}
    {a : AccountId} (hn : ¬ ev.isCallBy a) :
    (getAcc w.pool a).stakeShares ≤ (getAcc (step cfg w ev).pool a).stakeShares ∧
    (getAcc (step cfg w ev).pool a).unstaked = (getAcc w.pool a).unstaked ∧
    (getAcc (step cfg w ev).pool a).unstakedAvailableEpoch =
      (getAcc w.pool a).unstakedAvailableEpoch ∧
    (a ≠ w.pool.ownerId → getAcc (step cfg w ev).pool a = getAcc w.pool a) := by
  have hr := step_rel cfg w ev
  generalize step cfg w ev = w' at hr ⊢
  cases hr with
  | env h1 => rw [h1]; exact ⟨Nat.le_refl _, rfl, rfl, fun _ => rfl⟩
  | callback _ _ _ => exact ⟨Nat.le_refl _, rfl, rfl, fun _ => rfl⟩
  | call he _ hx =>
    subst he
    have hf := call_facts h.pool hx
    simp only [Ev.isCallBy] at hn
    have ho := hf.ownerAcc a (fun e => hn e.symm)
    exact ⟨ho.2.1, ho.1, ho.2.2, hf.others a (fun e => hn e.symm)⟩

theorem run_bystander {cfg : Cfg} {s0 : Nat} {w : World} (h : WInv cfg s0 w) {evs : List Ev}
    {a : AccountId} (hn : ∀ ev ∈ evs, ¬ ev.isCallBy a) :
    (getAcc w.pool a).stakeShares ≤ (getAcc (run cfg w evs).pool a).stakeShares ∧
    (getAcc (run cfg w evs).pool a).unstaked = (getAcc w.pool a).unstaked ∧
    (getAcc (run cfg w evs).pool a).unstakedAvailableEpoch =
      (getAcc w.pool a).unstakedAvailableEpoch := by
  induction evs generalizing w with
  | nil => exact ⟨Nat.le_refl _, rfl, rfl⟩
  | cons ev t ih =>
    have h1 := step_shares_mono h (hn ev (by simp))
    have h2 := ih (step_inv h ev) (fun e he => hn e (by simp [he]))
    exact ⟨Nat.le_trans h1.1 h2.1, h2.2.1.trans h1.2.1, h2.2.2.trans h1.2.2.1⟩

/-- **C01.** As long as `a` makes no call, its staked balance as reported by the view never goes
down, over every history of other events. -/
theorem C01_staked_balance_never_decreases {cfg : Cfg} {w : World} (h : Reachable cfg w)
    (a : AccountId) (evs : List Ev) (hn : ∀ ev ∈ evs, ¬ ev.isCallBy a) :
    ∃ x y, getAccountStakedBalance w.epoch w.pool a = .ok x ∧
      getAccountStakedBalance (run cfg w evs).epoch (run cfg w evs).pool a = .ok y ∧ x ≤ y := by
  obtain ⟨s0, hi⟩ := reachable_inv h
  have hi' := run_inv hi evs
  exact ⟨_, _, getStaked_total hi.pool _ a, getStaked_total hi'.pool _ a,
    stakedOf_mono hi.pool hi'.pool (run_price hi evs) (run_bystander hi hn).1⟩

/-- **C01 (price form).** The price of a share (total stake / number of shares) never goes down, in
any history at all, own calls included. -/
theorem C01_share_price_never_decreases {cfg : Cfg} {w : World} (h : Reachable cfg w)
    (evs : List Ev) :
    w.pool.totalStakedBalance * (run cfg w evs).pool.totalStakeShares ≤
      (run cfg w evs).pool.totalStakedBalance * w.pool.totalStakeShares := by
  obtain ⟨s0, hi⟩ := reachable_inv h
  exact run_price hi evs

/-- The hypotheses are met: others act while Alice does nothing, and her balance grows. -/
example : Reachable demoCfg demo ∧
    (∀ ev ∈ [Ev.epochs 1, .reward 1000, .call "bob.near" 10 .depositAndStake, .call "owner.near" 0
      (.updateRewardFeeFraction ⟨1, 2⟩)], ¬ ev.isCallBy "alice.near") ∧
    getAccountStakedBalance 8 demo.pool "alice.near" = .ok 10000175000000000004362657 ∧
    getAccountStakedBalance 9 (run demoCfg demo [Ev.epochs 1, .reward 1000,
      .call "bob.near" 10 .depositAndStake,
      .call "owner.near" 0 (.updateRewardFeeFraction ⟨1, 2⟩)]).pool "alice.near" =
      .ok 10000175000000000004362883 := by
  refine ⟨demo_reachable, ?_, by decide +kernel, by decide +kernel⟩
  simp [Ev.isCallBy]

/-- **C02.** Price at least one, shares and stake positive, in every reachable state; so neither
share conversion can hit its "can't be 0" assertion and the account view never panics. -/
theorem C02_share_price_at_least_one {cfg : Cfg} {w : World} (h : Reachable cfg w) :
    0 < w.pool.totalStakeShares ∧ w.pool.totalStakeShares ≤ w.pool.totalStakedBalance ∧
    (∀ amount, numSharesDown w.pool amount ≠ .error "The total staked balance can't be 0") ∧
    (∀ amount, numSharesUp w.pool amount ≠ .error "The total staked balance can't be 0") ∧
    (∀ n, stakedAmountDown w.pool n ≠ .error "The total number of stake shares can't be 0") ∧
    (∀ n, stakedAmountUp w.pool n ≠ .error "The total number of stake shares can't be 0") ∧
    (∀ a, ∃ acc, getAccount w.epoch w.pool a = .ok acc) := by
  obtain ⟨s0, hi⟩ := reachable_inv h
  have hS := hi.pool.S_pos
  have hT := hi.pool.T_pos
  refine ⟨hS, hi.pool.price, ?_, ?_, ?_, ?_, fun a => ⟨_, getAccount_total hi.pool _ a⟩⟩
  · intro n hcon
    simp only [numSharesDown, bind_err, require_err] at hcon
    rcases hcon with ⟨h, _⟩ | ⟨_, _, h | ⟨_, _, h | ⟨_, _, h⟩⟩⟩
    · exact h hT
    · exact absurd (mulU256_err h) (by decide)
    · exact absurd (divU_err h) (by decide)
    · exact absurd (asU128_err h) (by decide)
  · intro n hcon
    simp only [numSharesUp, bind_err, require_err] at hcon
    rcases hcon with ⟨h, _⟩ | ⟨_, _, h | ⟨_, _, h | ⟨_, _, h | ⟨_, _, h⟩⟩⟩⟩
    · exact h hT
    · exact absurd (mulU256_err h) (by decide)
    · exact absurd (addU256_err h) (by decide)
    · exact absurd (divU_err h) (by decide)
    · exact absurd (asU128_err h) (by decide)
  · intro n hcon
    simp only [stakedAmountDown, bind_err, require_err] at hcon
    rcases hcon with ⟨h, _⟩ | ⟨_, _, h | ⟨_, _, h | ⟨_, _, h⟩⟩⟩
    · exact h hS
    · exact absurd (mulU256_err h) (by decide)
    · exact absurd (divU_err h) (by decide)
    · exact absurd (asU128_err h) (by decide)
  · intro n hcon
    simp only [stakedAmountUp, bind_err, require_err] at hcon
    rcases hcon with ⟨h, _⟩ | ⟨_, _, h | ⟨_, _, h | ⟨_, _, h | ⟨_, _, h⟩⟩⟩⟩
    · exact h hS
    · exact absurd (mulU256_err h) (by decide)
    · exact absurd (addU256_err h) (by decide)
    · exact absurd (divU_err h) (by decide)
    · exact absurd (asU128_err h) (by decide)

example : Reachable demoCfg demo := demo_reachable

theorem pingRel_noShares {e : Env} {s s1 : Pool} (h : PingRel e s s1)
    (h0 : s.totalStakeShares = 0) : s1.totalStakeShares = 0 := by
  rcases h with rfl | ⟨b, h⟩
  · exact h0
  · rw [internalPing_ok] at h
    rcases h with ⟨_, rfl, _⟩ | ⟨_, _, _, h1, _, s2, h, rfl⟩
    · exact h0
    · unfold distributeIf at h
      split at h
      · rw [distribute_ok] at h
        obtain ⟨fee, n, _, _, _, hn, _, rfl⟩ := h
        rw [numSharesDown_ok] at hn
        simp only [h0, Nat.zero_mul, Nat.zero_div] at hn
        simp only [distributed, h0, hn.2.2.1]
      · rw [pure_ok] at h; subst h; exact h0

theorem stake_noShares {e : Env} {s s' : Pool} {x : Nat} (h0 : s.totalStakeShares = 0)
    (h : internalStake e s x = .ok s') : False := by
  rw [internalStake_ok] at h
  obtain ⟨n, _, _, _, hn, h1, _⟩ := h
  rw [numSharesDown_ok] at hn
  simp only [h0, Nat.zero_mul, Nat.zero_div] at hn
  omega

theorem exec_noShares {e : Env} {s s' : Pool} {c : Call} {effs : List Eff}
    (h : exec e s c = .ok (s', effs)) (h0 : s.totalStakeShares = 0) :
    s'.totalStakeShares = 0 ∧ c ≠ .depositAndStake ∧ c ≠ .stakeAll ∧ ∀ x, c ≠ .stake x := by
  obtain ⟨s1, hp, hb⟩ := exec_cases h
  have h1 := pingRel_noShares hp h0
  cases hb with
  | idle hr =>
    refine ⟨h1, ?_, ?_, ?_⟩
    · rintro rfl; simp [Call.isRounding] at hr
    · rintro rfl; simp [Call.isRounding] at hr
    · rintro x rfl; simp [Call.isRounding] at hr
  | admin _ _ _ hr =>
    refine ⟨h1, ?_, ?_, ?_⟩
    · rintro rfl; simp [Call.isRounding] at hr
    · rintro rfl; simp [Call.isRounding] at hr
    · rintro x rfl; simp [Call.isRounding] at hr
  | deposit hd =>
    rw [internalDeposit_ok] at hd
    obtain ⟨_, _, _, rfl⟩ := hd
    exact ⟨by simpa using h1, by simp, by simp, by simp⟩
  | depositStake hd hs =>
    rw [internalDeposit_ok] at hd
    obtain ⟨_, _, _, rfl⟩ := hd
    exact (stake_noShares (by simpa using h1) hs).elim
  | withdraw hc _ hw =>
    rw [internalWithdraw_ok] at hw
    obtain ⟨_, _, _, _, _, _, rfl⟩ := hw
    refine ⟨by simpa using h1, ?_, ?_, ?_⟩
    all_goals rcases hc with rfl | ⟨rfl, _⟩ <;> simp
  | stake _ _ hs => exact (stake_noShares h1 hs).elim
  | unstake hc _ hu =>
    rw [innerUnstake_ok] at hu
    obtain ⟨n, _, _, _, _, _, _, _, _, _, _, _, _, _, _, rfl⟩ := hu
    refine ⟨by simp [h1], ?_, ?_, ?_⟩
    all_goals rcases hc with rfl | ⟨rfl, _⟩ <;> simp

theorem run_noShares (cfg : Cfg) (evs : List Ev) (w : World) (h : w.pool.totalStakeShares = 0) :
    (run cfg w evs).pool.totalStakeShares = 0 := by
  induction evs generalizing w with
  | nil => exact h
  | cons ev t ih =>
    refine ih _ ?_
    have hr := step_rel cfg w ev
    generalize step cfg w ev = w' at hr ⊢
    cases hr with
    | env h1 => rw [h1]; exact h
    | callback _ _ _ => exact h
    | call _ _ hx => exact (exec_noShares hx h).1

/-- Why C02 needs more than the fund on the account: initializing with exactly the fund is accepted,
and afterwards no stake call of anybody ever succeeds, in any history. -/
theorem C02_exactly_the_fund_is_dead (cfg : Cfg) (deployer owner : AccountId) (key : PublicKey)
    (epoch : Nat) (ho : cfg.validAccountId owner = true) (hk : cfg.validPublicKey key = true) :
    ∃ p effs, new (initEnv cfg deployer guaranteeFund epoch) false owner key ⟨0, 1⟩ = .ok (p, effs) ∧
      ∀ evs e c, (c = .depositAndStake ∨ c = .stakeAll ∨ ∃ x, c = .stake x) →
        ¬ ∃ r, exec e (run cfg (initWorld p effs guaranteeFund epoch) evs).pool c = .ok r := by
  have hn : new (initEnv cfg deployer guaranteeFund epoch) false owner key ⟨0, 1⟩
      = .ok (⟨owner, key, epoch, guaranteeFund, 0, 0, ⟨0, 1⟩, UMap.empty, false⟩,
          [.stake 0 key true]) := by
    simp [new, Fee.decode, Fee.assertValid, require, subU, internalRestake, initEnv, ho, hk, two32,
      bind, Except.bind, pure, Except.pure]
  refine ⟨_, _, hn, ?_⟩
  rintro evs e c hc ⟨⟨s', effs⟩, hx⟩
  have h := (exec_noShares hx (run_noShares cfg evs _ rfl)).2
  rcases hc with rfl | rfl | ⟨x, rfl⟩
  · exact h.1 rfl
  · exact h.2.1 rfl
  · exact h.2.2 x rfl

example : demoCfg.validAccountId "owner.near" = true ∧ demoCfg.validPublicKey "key" = true := by
  decide +kernel

/-- **C03.** Nobody loses a yocto by using the pool: unstaked + staked + already paid out is at
least everything deposited, for every account after every history. -/
theorem C03_no_account_loses {cfg : Cfg} {w : World} (h : Reachable cfg w) (a : AccountId) :
    ∃ u x, getAccountUnstakedBalance w.epoch w.pool a = .ok u ∧
      getAccountStakedBalance w.epoch w.pool a = .ok x ∧
      w.deposited a ≤ u + x + w.withdrawn a := by
  obtain ⟨s0, hi⟩ := reachable_inv h
  exact ⟨_, _, getUnstaked_total hi.pool _ a, getStaked_total hi.pool _ a, hi.value a⟩

/-- Between any two moments (own calls included) the value of a position changes at least by what was
put in minus what was paid out. -/
theorem C03_position_value_monotone {cfg : Cfg} {w : World} (h : Reachable cfg w) (a : AccountId)
    (evs : List Ev) :
    ∃ u x u' x', getAccountUnstakedBalance w.epoch w.pool a = .ok u ∧
      getAccountStakedBalance w.epoch w.pool a = .ok x ∧
      getAccountUnstakedBalance (run cfg w evs).epoch (run cfg w evs).pool a = .ok u' ∧
      getAccountStakedBalance (run cfg w evs).epoch (run cfg w evs).pool a = .ok x' ∧
      u + x + ((run cfg w evs).deposited a - w.deposited a) ≤
        u' + x' + ((run cfg w evs).withdrawn a - w.withdrawn a) ∧
      w.deposited a ≤ (run cfg w evs).deposited a ∧ w.withdrawn a ≤ (run cfg w evs).withdrawn a := by
  obtain ⟨s0, hi⟩ := reachable_inv h
  have hi' := run_inv hi evs
  refine ⟨_, _, _, _, getUnstaked_total hi.pool _ a, getStaked_total hi.pool _ a,
    getUnstaked_total hi'.pool _ a, getStaked_total hi'.pool _ a, ?_⟩
  suffices hmain : (getAcc w.pool a).unstaked + stakedOf w.pool a + (run cfg w evs).deposited a +
      w.withdrawn a ≤ (getAcc (run cfg w evs).pool a).unstaked + stakedOf (run cfg w evs).pool a +
      (run cfg w evs).withdrawn a + w.deposited a ∧
      w.deposited a ≤ (run cfg w evs).deposited a ∧ w.withdrawn a ≤ (run cfg w evs).withdrawn a by
    omega
  clear hi' h
  induction evs generalizing w with
  | nil => simp only [run]; omega
  | cons ev t ih =>
    have h2 := ih (step_inv hi ev)
    have hstep : (getAcc w.pool a).unstaked + stakedOf w.pool a + (step cfg w ev).deposited a +
      w.withdrawn a ≤ (getAcc (step cfg w ev).pool a).unstaked + stakedOf (step cfg w ev).pool a +
      (step cfg w ev).withdrawn a + w.deposited a ∧
      w.deposited a ≤ (step cfg w ev).deposited a ∧ w.withdrawn a ≤ (step cfg w ev).withdrawn a := by
      have hr := step_rel cfg w ev
      generalize step cfg w ev = w' at hr ⊢
      cases hr with
      | env h1 _ h3 h4 => rw [h1, h3, h4]; omega
      | callback _ _ _ => simp only; omega
      | @call who att c p effs he _ hx =>
        have hf := call_facts hi.pool hx
        simp only [commit]
        by_cases ha : a = who
        · subst ha
          have h1 := hf.value
          simp only [mkEnv] at h1
          simp only [if_true]; omega
        · rw [if_neg ha]
          have h1 := hf.ownerAcc a (by simpa [mkEnv] using ha)
          have h3 := stakedOf_mono (a := a) hi.pool hf.inv hf.price h1.2.1
          omega
    simp only [run]
    omega

example : Reachable demoCfg demo ∧ demo.deposited "alice.near" = 10 * 10 ^ 24 + 3 :=
  ⟨demo_reachable, by decide +kernel⟩

/-! ## C06 -/

/-- Sum of the total balances of the listed accounts. -/
def sumTotals (epoch : Nat) (s : Pool) : List AccountId → R Nat
  | [] => .ok 0
  | a :: t => do
    let acc ← getAccount epoch s a
    let rest ← sumTotals epoch s t
    pure (acc.unstakedBalance + acc.stakedBalance + rest)

theorem sum_floor_le {T S : Nat} (l : List Nat) (h : l.sum ≤ S) :
    (l.map (fun n => T * n / S)).sum ≤ T := by
  have h1 : (l.map (fun n => T * n / S)).sum ≤ T * l.sum / S := by
    clear h
    induction l with
    | nil => simp
    | cons x t ih =>
      simp only [List.map_cons, List.sum_cons]
      exact Nat.le_trans (Nat.add_le_add_left ih _) (Arith.down_add_le T S x t.sum)
  exact Nat.le_trans h1 (Arith.down_le_total h)

theorem UMap.sum_parts_le {V : Type} (m : UMap AccountId V) (f : AccountId → V → Nat)
    (l : List AccountId) (hl : l.Nodup) : (l.map (m.part f)).sum ≤ m.sum f := by
  induction l generalizing m with
  | nil => simp
  | cons a t ih =>
    simp only [List.map_cons, List.sum_cons]
    have h1 := UMap.sum_remove m a f
    have h2 := ih (m.remove a) (List.nodup_cons.mp hl).2
    have h3 : t.map ((m.remove a).part f) = t.map (m.part f) := by
      apply List.map_congr_left
      intro b hb
      have : a ≠ b := fun e => (List.nodup_cons.mp hl).1 (e ▸ hb)
      unfold UMap.part; rw [UMap.get_remove_ne this]
    rw [h3] at h2
    omega

theorem sumTotals_eq {s0 : Nat} {s : Pool} (hi : PoolInv s0 s) (epoch : Nat) (l : List AccountId) :
    sumTotals epoch s l =
      .ok ((l.map (fun a => (getAcc s a).unstaked)).sum + (l.map (stakedOf s)).sum) := by
  induction l with
  | nil => rfl
  | cons a t ih =>
    simp only [sumTotals, bind_ok, pure_ok]
    refine ⟨_, getAccount_total hi epoch a, _, ih, ?_⟩
    simp only [List.map_cons, List.sum_cons]
    omega

/-- **C06.** In every reachable state: staked total plus all unstaked balances plus the guarantee
fund is at most the accounted balance plus one yocto per stake/unstake performed so far, the
accounted balance is on the account, and hence, during the first 10^12 stake/unstake operations, the
claims of any set of delegators together are covered by the tokens of the pool. -/
theorem C06_solvency {cfg : Cfg} {w : World} (h : Reachable cfg w) :
    w.pool.totalStakedBalance + sumUnstaked w.pool + guaranteeFund ≤
      w.pool.lastTotalBalance + w.roundings ∧
    w.pool.lastTotalBalance ≤ w.liquid + w.locked ∧
    (w.roundings ≤ 10 ^ 12 → ∀ l : List AccountId, l.Nodup →
      ∃ x, sumTotals w.epoch w.pool l = .ok x ∧ x ≤ w.liquid + w.locked) := by
  obtain ⟨s0, hi⟩ := reachable_inv h
  refine ⟨hi.solv, hi.cover, fun hr l hl => ⟨_, sumTotals_eq hi.pool _ l, ?_⟩⟩
  have h1 : (l.map (fun a => (getAcc w.pool a).unstaked)).sum ≤ sumUnstaked w.pool := by
    have := UMap.sum_parts_le w.pool.accounts (fun _ a => a.unstaked) l hl
    have he : l.map (w.pool.accounts.part (fun _ a => a.unstaked))
        = l.map (fun a => (getAcc w.pool a).unstaked) :=
      List.map_congr_left (fun a _ => part_unstaked w.pool a)
    rw [he] at this; exact this
  have h2 : (l.map (stakedOf w.pool)).sum ≤ w.pool.totalStakedBalance := by
    have h3 := UMap.sum_parts_le w.pool.accounts (fun _ a => a.stakeShares) l hl
    have he : l.map (w.pool.accounts.part (fun _ a => a.stakeShares))
        = l.map (fun a => (getAcc w.pool a).stakeShares) :=
      List.map_congr_left (fun a _ => part_shares w.pool a)
    rw [he] at h3
    have h4 := sum_floor_le (T := w.pool.totalStakedBalance) (S := w.pool.totalStakeShares)
      (l.map (fun a => (getAcc w.pool a).stakeShares))
      (by have := hi.pool.shares; unfold sumShares at this; omega)
    rw [List.map_map] at h4
    exact h4
  have h5 := hi.solv; have h6 := hi.cover
  unfold guaranteeFund at h5
  omega

/-- C06, what the delegators own together also never falls below the accounted balance minus the
fund: rounding is only ever in favour of the delegators. -/
theorem C06_rounding_favours_delegators {cfg : Cfg} {w : World} (h : Reachable cfg w) :
    w.pool.lastTotalBalance ≤
      w.pool.totalStakedBalance + sumUnstaked w.pool + guaranteeFund := by
  obtain ⟨s0, hi⟩ := reachable_inv h
  exact hi.solvLow

example : Reachable demoCfg demo ∧ demo.roundings = 2 ∧
    ["alice.near", "bob.near", "owner.near"].Nodup :=
  ⟨demo_reachable, by decide +kernel, by decide +kernel⟩

/-- **C16.** The number of shares is the number created at initialization (the balance above the
fund) plus the shares of all accounts. -/
theorem C16_share_accounting_exact {cfg : Cfg} {w0 : World} (h : Started cfg w0) (evs : List Ev) :
    (run cfg w0 evs).pool.totalStakeShares =
      (w0.liquid - guaranteeFund) +
      ((run cfg w0 evs).pool.accounts.entries.map (fun p => p.2.stakeShares)).sum := by
  have hl : w0.locked = 0 := by
    obtain ⟨_, _, _, _, _, _, _, _, _, _, _, rfl⟩ := h; rfl
  obtain ⟨b, _, hi, hb, _⟩ := started_inv h
  have := (run_inv hi evs).pool.shares
  rw [this]
  have : w0.liquid = b := by omega
  rw [this]; rfl

example : Started demoCfg demo0 ∧ (run demoCfg demo0 demoEvs).pool.accounts.len = 3 :=
  ⟨demo0_started, by decide +kernel⟩

end Verif.StakingPool
