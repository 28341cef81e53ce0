import Verif.StakingPool.Props7
import Verif.StakingPool.Leave
import Verif.StakingPool.Slash

/-!
# Staking pool properties C94 (rewards are shared in proportion to the stake) and C95 (slashing)
-/

namespace Verif.StakingPool

open Verif

/-! ## C94 -/

/-- **C94 (one distribution).** A `ping` in a new epoch finds `r` more tokens than accounted, and the
fee of the owner is `f = floor(r * fee)`. An account with `v` of the `T` staked tokens then has at least
`floor(v * (T + r - f) / T)`: its stake grows by its share of the reward after the fee. It never gets
much more: `v'/(v + 1)` is at most `(T + r - f) / T`, up to the share of one stake share. -/
theorem C94_reward_in_proportion {cfg : Cfg} {w : World} (h : Reachable cfg w) (a : AccountId)
    (hne : w.pool.lastEpochHeight ≠ w.epoch) {p : Pool} {effs : List Eff}
    (hx : exec (mkEnv cfg w a 0 []) w.pool .ping = .ok (p, effs)) {r : Nat}
    (hr : r + w.pool.lastTotalBalance = w.liquid + w.locked) {b : AccountId}
    (hb : b ≠ getOwnerId w.pool) {v v' : Nat}
    (hv : getAccountStakedBalance w.epoch w.pool b = .ok v)
    (hv' : getAccountStakedBalance w.epoch p b = .ok v') :
    let T := getTotalStakedBalance w.pool
    let f := r * (getRewardFeeFraction w.pool).numerator / (getRewardFeeFraction w.pool).denominator
    v * (T + r - f) / T ≤ v' ∧
    v' * T * p.totalStakeShares ≤ (v + 1) * (T + r - f) * (p.totalStakeShares + 1) := by
  intro T f
  obtain ⟨s0, hi⟩ := reachable_inv h
  obtain ⟨r', m, e1, e2, e3, e4, _, _, _, e8, e9⟩ := C10_owner_cut_bounded h a hne hx
  have er : r' = r := by omega
  subst er
  have hT := hi.pool.T_pos
  have hS := hi.pool.S_pos
  have hip : PoolInv s0 p := by
    simp only [exec, ping, bind_ok, notPayable_ok, pure_ok, Prod.exists, Prod.mk.injEq] at hx
    obtain ⟨_, h0, s1, b, h1, effs1, h2, rfl, rfl⟩ := hx
    exact (ping_facts hi.pool h1).inv
  rw [getStaked_total hi.pool] at hv
  rw [getStaked_total hip] at hv'
  cases hv
  cases hv'
  have hS' := hip.S_pos
  unfold stakedOf
  rw [e4 b hb]
  have hf : f ≤ r' := by
    have := hi.pool.fee
    exact (Nat.div_le_of_le_mul (by rw [Nat.mul_comm]; exact Nat.mul_le_mul_right _ this.le))
  change (T + r' - f) * _ ≤ _ at e9
  change f * _ < _ at e8
  change p.totalStakedBalance = T + r' at e2
  change 0 < T at hT
  change _ / T ≤ _ ∧ _
  rw [e2] at e8 e9 ⊢
  rw [e3] at e8 e9 ⊢
  rw [e3] at hS'
  generalize (getAcc w.pool b).stakeShares = x
  show T * x / w.pool.totalStakeShares * (T + r' - f) / T ≤ _ ∧ _ * T * _ ≤
    (T * x / w.pool.totalStakeShares + 1) * _ * _
  generalize w.pool.totalStakeShares = S at *
  generalize f = f at *
  obtain ⟨k, hk⟩ : ∃ k, T + r' = k + f := ⟨T + r' - f, by omega⟩
  have hk' : T + r' - f = k := by omega
  rw [hk'] at e9 ⊢
  generalize T + r' = T' at *
  have l1 : T * x / S * S ≤ T * x := Nat.div_mul_le_self _ _
  have l2 : T * x ≤ (T * x / S + 1) * S := by
    have := Nat.div_add_mod (T * x) S
    have := Nat.mod_lt (T * x) hS
    nlinarith
  constructor
  · generalize T * x / S = v at *
    rw [Nat.le_div_iff_mul_le hS']
    have l3 := Nat.div_mul_le_self (v * k) T
    generalize v * k / T = q at *
    have l4 : q * T * (S + m) ≤ v * k * (S + m) := Nat.mul_le_mul_right _ l3
    have l5 : v * (k * (S + m)) ≤ v * (T' * S) := Nat.mul_le_mul_left _ e9
    have l6 : v * S * T' ≤ T * x * T' := Nat.mul_le_mul_right _ l1
    have : T * (q * (S + m)) ≤ T * (T' * x) :=
      calc T * (q * (S + m)) = q * T * (S + m) := by ring
        _ ≤ v * k * (S + m) := l4
        _ = v * (k * (S + m)) := by ring
        _ ≤ v * (T' * S) := l5
        _ = v * S * T' := by ring
        _ ≤ T * x * T' := l6
        _ = T * (T' * x) := by ring
    exact Nat.le_of_mul_le_mul_left this hT
  · have l3 := Nat.div_mul_le_self (T' * x) (S + m)
    generalize T' * x / (S + m) = q at *
    generalize T * x / S = v at *
    have l4 : T' * S ≤ k * (S + m + 1) := by subst hk; nlinarith
    have l5 : q * (S + m) * T ≤ T' * x * T := Nat.mul_le_mul_right _ l3
    have l6 : T * x * T' ≤ (v + 1) * S * T' := Nat.mul_le_mul_right _ l2
    have l7 : (v + 1) * (T' * S) ≤ (v + 1) * (k * (S + m + 1)) := Nat.mul_le_mul_left _ l4
    calc q * T * (S + m) = q * (S + m) * T := by ring
      _ ≤ T' * x * T := l5
      _ = T * x * T' := by ring
      _ ≤ (v + 1) * S * T' := l6
      _ = (v + 1) * (T' * S) := by ring
      _ ≤ (v + 1) * (k * (S + m + 1)) := l7
      _ = (v + 1) * k * (S + m + 1) := by ring

/-- The hypotheses are met by a distribution with a positive reward and a positive fee. -/
example :
    let w := run demoCfg demo [.epochs 1, .reward (10 ^ 23)]
    Reachable demoCfg w ∧ w.pool.lastEpochHeight ≠ w.epoch ∧
    (exec (mkEnv demoCfg w "bob.near" 0 []) w.pool .ping).isOk = true ∧
    10 ^ 23 ≤ w.liquid + w.locked - w.pool.lastTotalBalance ∧
    0 < (getRewardFeeFraction w.pool).numerator ∧ "alice.near" ≠ getOwnerId w.pool ∧
    getAccountStakedBalance w.epoch w.pool "alice.near" = .ok 10000175000000000004362657 :=
  ⟨demo_reachable.run _, by decide +kernel, by decide +kernel, by decide +kernel, by decide +kernel,
    by decide +kernel, by decide +kernel⟩

/-- **C94 (whole histories).** As long as neither calls the pool, the stakes of two delegators grow by
the same factor, up to the rounding of the views: if they go from `x` to `x'` and from `y` to `y'` then
`x'/(x + 1) < (y' + 1)/y`, and the same with the roles exchanged. -/
theorem C94_same_growth_for_all {cfg : Cfg} {w : World} (h : Reachable cfg w) {a b : AccountId}
    (ha : a ≠ getOwnerId w.pool) (hb : b ≠ getOwnerId w.pool) {evs : List Ev}
    (hn : ∀ ev ∈ evs, ¬ ev.isCallBy a ∧ ¬ ev.isCallBy b) {x x' y y' : Nat}
    (hx : getAccountStakedBalance w.epoch w.pool a = .ok x)
    (hy : getAccountStakedBalance w.epoch w.pool b = .ok y)
    (hx' : getAccountStakedBalance (run cfg w evs).epoch (run cfg w evs).pool a = .ok x')
    (hy' : getAccountStakedBalance (run cfg w evs).epoch (run cfg w evs).pool b = .ok y') :
    x' * y < (x + 1) * (y' + 1) ∧ (x < y → x' ≤ y') := by
  obtain ⟨s0, hi⟩ := reachable_inv h
  have hi' := run_inv hi evs
  rw [getStaked_total hi.pool] at hx hy
  rw [getStaked_total hi'.pool] at hx' hy'
  cases hx; cases hy; cases hx'; cases hy'
  unfold stakedOf
  rw [run_nonowner hi ha (fun ev he => (hn ev he).1), run_nonowner hi hb (fun ev he => (hn ev he).2)]
  have hS := hi.pool.S_pos
  have hS' := hi'.pool.S_pos
  generalize (run cfg w evs).pool.totalStakedBalance = T'
  generalize (run cfg w evs).pool.totalStakeShares = S' at *
  generalize w.pool.totalStakedBalance = T
  generalize w.pool.totalStakeShares = S at *
  generalize (getAcc w.pool a).stakeShares = p
  generalize (getAcc w.pool b).stakeShares = q
  constructor
  · have l1 := Nat.div_mul_le_self (T' * p) S'
    have l2 := Nat.div_mul_le_self (T * q) S
    have l3 : T * p < (T * p / S + 1) * S := by
      rw [← Nat.div_lt_iff_lt_mul hS]; omega
    have l4 : T' * q < (T' * q / S' + 1) * S' := by
      rw [← Nat.div_lt_iff_lt_mul hS']; omega
    generalize T' * p / S' = x' at *
    generalize T * q / S = y at *
    generalize T * p / S = x at *
    generalize T' * q / S' = y' at *
    have l5 : (x' * S') * (y * S) ≤ (T' * p) * (T * q) := Nat.mul_le_mul l1 l2
    have l6 : (T * p) * (T' * q) < ((x + 1) * S) * ((y' + 1) * S') := Nat.mul_lt_mul'' l3 l4
    have l7 : (S * S') * (x' * y) < (S * S') * ((x + 1) * (y' + 1)) :=
      calc (S * S') * (x' * y) = (x' * S') * (y * S) := by ring
        _ ≤ (T' * p) * (T * q) := l5
        _ = (T * p) * (T' * q) := by ring
        _ < ((x + 1) * S) * ((y' + 1) * S') := l6
        _ = (S * S') * ((x + 1) * (y' + 1)) := by ring
    exact Nat.lt_of_mul_lt_mul_left l7
  · intro hlt
    have : p ≤ q := by
      rcases Nat.lt_or_ge q p with hqp | hqp
      · exfalso
        have : T * q / S ≤ T * p / S := Nat.div_le_div_right (Nat.mul_le_mul_left _ (Nat.le_of_lt hqp))
        omega
      · exact hqp
    exact Nat.div_le_div_right (Nat.mul_le_mul_left _ this)

/-- Two delegators do nothing while rewards come and others stake. -/
example :
    let w := run demoCfg demo [.call "carol.near" (2 * 10 ^ 24) .depositAndStake]
    Reachable demoCfg w ∧ "alice.near" ≠ getOwnerId w.pool ∧ "carol.near" ≠ getOwnerId w.pool ∧
    (∀ ev ∈ [Ev.epochs 1, .reward (10 ^ 23), .call "bob.near" 1000000 .depositAndStake],
      ¬ ev.isCallBy "alice.near" ∧ ¬ ev.isCallBy "carol.near") ∧
    (getAccountStakedBalance w.epoch w.pool "carol.near").isOk = true :=
  ⟨demo_reachable.run _, by decide +kernel, by decide +kernel, by simp [Ev.isCallBy],
    by decide +kernel⟩

/-! ## C95 -/

/-- **C95 (slashing stops the pool).** If tokens are taken away so that the account holds less than
the pool accounted at its last distribution, then from the next epoch on, and as long as the shortfall
is not made up by tokens from outside, every call except `vote` fails, nothing is paid, and all
recorded balances stay as they are. A deposit cannot make up the shortfall. -/
theorem C95_slashed_pool_is_frozen {cfg : Cfg} {w : World} {x : Nat} {evs : List Ev}
    (hep : w.pool.lastEpochHeight < w.epoch)
    (hs : w.liquid + (w.locked - x) + inflow evs < w.pool.lastTotalBalance) :
    let w' := run cfg (slash w x) evs
    w'.pool = w.pool ∧ w'.totalWithdrawn = w.totalWithdrawn ∧ w'.totalDeposited = w.totalDeposited ∧
    ∀ (a : AccountId) (d : Nat) (c : Call), (∀ v b, c ≠ .vote v b) → a ≠ cfg.self →
      ¬ ∃ r, exec (mkEnv cfg w' a d []) w'.pool c = .ok r := by
  intro w'
  obtain ⟨hf, hsh⟩ := frozen_run (cfg := cfg) (w := slash w x) (evs := evs)
    ⟨hep, by show w.liquid + (w.locked - x) < _; exact Nat.lt_of_le_of_lt (Nat.le_add_right _ _) hs⟩ hs
  refine ⟨hf.pool, hf.totalWithdrawn, hf.totalDeposited, ?_⟩
  rintro a d c hc ha ⟨r, hx⟩
  by_cases hp : c.pings = true
  · exact hsh.refuses hp hx
  · cases c with
    | vote v b => exact hc v b rfl
    | onStakeAction =>
      simp only [exec, onStakeAction, bind_ok, require_ok] at hx
      obtain ⟨_, _, _, he, _⟩ := hx
      exact ha he.symm
    | _ => exact hp rfl

/-- **C95 (making up the shortfall revives the pool).** As soon as `y` tokens sent to the account make
up the shortfall, everything works again for everybody: `ping`, `deposit`, withdrawals that are due and
`unstake_all`; no recorded balance was changed. -/
theorem C95_refill_revives {cfg : Cfg} {w : World} (h : Reachable cfg w) {x : Nat} {evs : List Ev}
    (hep : w.pool.lastEpochHeight < w.epoch)
    (hs : w.liquid + (w.locked - x) + inflow evs < w.pool.lastTotalBalance) {y : Nat}
    (hy : w.pool.lastTotalBalance ≤ w.liquid + (w.locked - x) + inflow evs + y)
    (hb : Bounded (run cfg (slash w x) (evs ++ [.income y]))) :
    let w' := run cfg (slash w x) (evs ++ [.income y])
    w'.pool = w.pool ∧
    (∀ a, ∃ r, exec (mkEnv cfg w' a 0 []) w'.pool .ping = .ok r) ∧
    (∀ a d, d < 2 ^ 120 → ∃ r, exec (mkEnv cfg w' a d []) w'.pool .deposit = .ok r) ∧
    (∀ a acc z, getAccount w'.epoch w'.pool a = .ok acc →
      ((∃ r, exec (mkEnv cfg w' a 0 []) w'.pool (.withdraw z) = .ok r) ↔
        0 < z ∧ z ≤ acc.unstakedBalance ∧ acc.canWithdraw = true ∧ z ≤ w'.liquid)) ∧
    (∀ a z, getAccountStakedBalance w'.epoch w'.pool a = .ok z → 0 < z →
      ∃ r, exec (mkEnv cfg w' a 0 []) w'.pool .unstakeAll = .ok r) := by
  intro w'
  obtain ⟨s0, hi⟩ := reachable_inv h
  obtain ⟨hf, _⟩ := frozen_run (cfg := cfg) (w := slash w x) (evs := evs)
    ⟨hep, by show w.liquid + (w.locked - x) < _; exact Nat.lt_of_le_of_lt (Nat.le_add_right _ _) hs⟩ hs
  have hw' : w' = step cfg (run cfg (slash w x) evs) (.income y) := run_append cfg _ evs [.income y]
  have hp' : w'.pool = w.pool := by rw [hw']; exact hf.pool
  have hi' : WInv cfg s0 w' := by
    refine refilled_inv hi hp' ?_ ?_ ?_ ?_ ?_
    · rw [hw']; exact hf.epoch
    · rw [hw']; exact hf.roundings
    · rw [hw']; exact hf.deposited
    · rw [hw']; exact hf.withdrawn
    · have ht : (run cfg (slash w x) evs).liquid + (run cfg (slash w x) evs).locked =
          w.liquid + (w.locked - x) + inflow evs := hf.total
      rw [hw']
      show _ ≤ (run cfg (slash w x) evs).liquid + y + (run cfg (slash w x) evs).locked
      omega
  refine ⟨hp', fun a => (ping_deposit_inv hi' hb a 0 (by norm_num)).1,
    fun a d hd => (ping_deposit_inv hi' hb a d hd).2, fun a acc z hacc => ?_, fun a z hz h0 => ?_⟩
  · rw [← (withdraw_iff_inv hi' hb a z hacc).1]
    exact ⟨fun ⟨⟨p, e⟩, hx⟩ => ⟨p, e, hx⟩, fun ⟨p, e, hx⟩ => ⟨(p, e), hx⟩⟩
  · obtain ⟨p, effs, _, _, hx, _⟩ := unstakeAll_inv hi' hb a hz h0
    exact ⟨(p, effs), hx⟩

/-- The hypotheses of both C95 theorems are met: a quarter NEAR is taken away and sent back later. -/
example :
    let w := run demoCfg demo [.epochs 1]
    let evs := [Ev.call "alice.near" (10 ^ 24) .deposit, .epochs 2, .income 5, .deliver 0 true]
    Reachable demoCfg w ∧ w.pool.lastEpochHeight < w.epoch ∧ 10 ^ 24 / 4 ≤ w.locked ∧
    w.liquid + (w.locked - 10 ^ 24 / 4) + inflow evs < w.pool.lastTotalBalance ∧
    w.pool.lastTotalBalance ≤ w.liquid + (w.locked - 10 ^ 24 / 4) + inflow evs + 10 ^ 24 / 4 ∧
    Bounded (run demoCfg (slash w (10 ^ 24 / 4)) (evs ++ [.income (10 ^ 24 / 4)])) := by
  refine ⟨demo_reachable.run _, by decide +kernel, by decide +kernel, by decide +kernel,
    by decide +kernel, ⟨?_, ?_, ?_⟩⟩ <;> decide +kernel

end Verif.StakingPool
