import Mathlib.Algebra.Order.Field.Rat
import Mathlib.Tactic.FieldSimp
import Mathlib.Tactic.Linarith
import Mathlib.Tactic.LinearCombination
import Mathlib.Tactic.Positivity
import Mathlib.Tactic.Ring
import Verif.StakingPool.Props10

/-!
# Where the gain of a group of accounts can come from (helpers for C113)

The exact (rational) value of everything in the pool that does not belong to the group never shrinks,
apart from what the others withdraw. The total grows only by deposits, rewards and one yocto per
operation on shares. The rest is the group's.
-/

namespace Verif.StakingPool

open Verif

/-- Sum over a group. -/
def over (A : List AccountId) (f : AccountId → Nat) : Nat := (A.map f).sum

theorem over_same {A : List AccountId} {f g : AccountId → Nat} (h : ∀ a ∈ A, g a = f a) :
    over A g = over A f := by
  unfold over
  rw [List.map_congr_left h]

theorem over_one {A : List AccountId} (hA : A.Nodup) {f g : AccountId → Nat} {who : AccountId}
    (h : ∀ a, a ≠ who → g a = f a) :
    over A g + (if who ∈ A then f who else 0) = over A f + (if who ∈ A then g who else 0) := by
  induction A with
  | nil => simp [over]
  | cons b t ih =>
    have hb := List.nodup_cons.mp hA
    have ih := ih hb.2
    simp only [over, List.map_cons, List.sum_cons] at ih ⊢
    by_cases hw : who = b
    · subst hw
      rw [if_neg hb.1, if_neg hb.1] at ih
      simp only [List.mem_cons, true_or, if_true]
      omega
    · have h1 := h b (fun e => hw e.symm)
      simp only [List.mem_cons, hw, false_or]
      omega

/-- Exact price of one share. -/
def price (s : Pool) : ℚ := (s.totalStakedBalance : ℚ) / s.totalStakeShares

/-- Exact value of what the group has in the pool. -/
def worth (A : List AccountId) (s : Pool) : ℚ :=
  over A (fun a => (getAcc s a).unstaked) + price s * over A (fun a => (getAcc s a).stakeShares)

/-- Exact value of everything else in the pool. -/
def rest (A : List AccountId) (s : Pool) : ℚ :=
  ((sumUnstaked s : ℚ) - over A (fun a => (getAcc s a).unstaked)) +
    price s * ((s.totalStakeShares : ℚ) - over A (fun a => (getAcc s a).stakeShares))

theorem worth_add_rest {s0 : Nat} {s : Pool} (hi : PoolInv s0 s) (A : List AccountId) :
    worth A s + rest A s = s.totalStakedBalance + sumUnstaked s := by
  have hS : (s.totalStakeShares : ℚ) ≠ 0 := by
    have := hi.S_pos
    exact_mod_cast Nat.pos_iff_ne_zero.mp this
  have hq : price s * s.totalStakeShares = s.totalStakedBalance := by
    unfold price; field_simp
  unfold worth rest
  linear_combination hq

theorem price_mono {s0 : Nat} {s s' : Pool} (hi : PoolInv s0 s) (hi' : PoolInv s0 s')
    (h : PriceLe s s') : price s ≤ price s' := by
  have hS : (0 : ℚ) < s.totalStakeShares := by exact_mod_cast hi.S_pos
  have hS' : (0 : ℚ) < s'.totalStakeShares := by exact_mod_cast hi'.S_pos
  unfold price
  rw [div_le_div_iff₀ hS hS']
  unfold PriceLe at h
  exact_mod_cast h

theorem price_nonneg (s : Pool) : 0 ≤ price s := by unfold price; positivity

theorem over_shares_le {s0 : Nat} {s : Pool} (hi : PoolInv s0 s) {A : List AccountId}
    (hA : A.Nodup) : over A (fun a => (getAcc s a).stakeShares) ≤ s.totalStakeShares := by
  have h3 := UMap.sum_parts_le s.accounts (fun _ a => a.stakeShares) A hA
  have he : A.map (s.accounts.part (fun _ a => a.stakeShares))
      = A.map (fun a => (getAcc s a).stakeShares) :=
    List.map_congr_left (fun a _ => part_shares s a)
  rw [he] at h3
  have h4 := hi.shares
  unfold over
  unfold sumShares at h4
  omega

/-- One account's record changes: the rest keeps its value, and gains what the record gained if it is
not the group's. -/
theorem rest_step {s0 : Nat} {s s' : Pool} {A : List AccountId} (hA : A.Nodup) (hi : PoolInv s0 s)
    (hi' : PoolInv s0 s') (hp : PriceLe s s') {who : AccountId}
    (ho : ∀ a, a ≠ who → getAcc s' a = getAcc s a)
    (hU : sumUnstaked s' + (getAcc s who).unstaked = sumUnstaked s + (getAcc s' who).unstaked)
    (hS : s'.totalStakeShares + (getAcc s who).stakeShares =
      s.totalStakeShares + (getAcc s' who).stakeShares) :
    rest A s + (if who ∈ A then 0 else (((getAcc s' who).unstaked : ℚ) - (getAcc s who).unstaked +
      price s * ((getAcc s' who).stakeShares - (getAcc s who).stakeShares))) ≤ rest A s' := by
  have h1 := over_one hA (f := fun a => (getAcc s a).unstaked)
    (g := fun a => (getAcc s' a).unstaked) (who := who) (fun a ha => by rw [ho a ha])
  have h2 := over_one hA (f := fun a => (getAcc s a).stakeShares)
    (g := fun a => (getAcc s' a).stakeShares) (who := who) (fun a ha => by rw [ho a ha])
  have hle := over_shares_le hi' hA
  have hpr := price_mono hi hi' hp
  unfold rest
  generalize over A (fun a => (getAcc s' a).unstaked) = u' at *
  generalize over A (fun a => (getAcc s a).unstaked) = u at *
  generalize over A (fun a => (getAcc s' a).stakeShares) = x' at *
  generalize over A (fun a => (getAcc s a).stakeShares) = x at *
  generalize price s' = q' at *
  generalize price s = q at *
  have hle' : (0 : ℚ) ≤ (s'.totalStakeShares : ℚ) - x' := by
    have : (x' : ℚ) ≤ s'.totalStakeShares := by exact_mod_cast hle
    linarith
  have hm := mul_le_mul_of_nonneg_right hpr hle'
  have hU' : (sumUnstaked s' : ℚ) + (getAcc s who).unstaked =
    sumUnstaked s + (getAcc s' who).unstaked := by exact_mod_cast hU
  have hS' : (s'.totalStakeShares : ℚ) + (getAcc s who).stakeShares =
      s.totalStakeShares + (getAcc s' who).stakeShares := by exact_mod_cast hS
  by_cases hw : who ∈ A
  · simp only [hw, if_true] at h1 h2 ⊢
    have h1' : (u' : ℚ) + (getAcc s who).unstaked = u + (getAcc s' who).unstaked := by
      exact_mod_cast h1
    have h2' : (x' : ℚ) + (getAcc s who).stakeShares = x + (getAcc s' who).stakeShares := by
      exact_mod_cast h2
    have e : (s'.totalStakeShares : ℚ) - x' = s.totalStakeShares - x := by linarith
    rw [e] at hm ⊢
    linarith
  · simp only [hw, if_false, Nat.add_zero] at h1 h2 ⊢
    rw [h2] at hm hle'
    rw [h1, h2]
    have e : (s'.totalStakeShares : ℚ) - x = (s.totalStakeShares - x) +
      ((getAcc s' who).stakeShares - (getAcc s who).stakeShares) := by linarith
    rw [e] at hm ⊢
    have e2 := mul_add q ((s.totalStakeShares : ℚ) - x)
      ((getAcc s' who).stakeShares - (getAcc s who).stakeShares)
    linarith

/-- A distribution takes nothing from the rest. -/
theorem rest_ping {s0 : Nat} {e : Env} {s s1 : Pool} {A : List AccountId} (hA : A.Nodup)
    (hi : PoolInv s0 s) (h : PingRel e s s1) : rest A s ≤ rest A s1 := by
  have hpf := pingRel_facts hi h
  have hU : sumUnstaked s1 + (getAcc s s.ownerId).unstaked =
      sumUnstaked s + (getAcc s1 s.ownerId).unstaked := by
    rw [hpf.unstakedSum, hpf.unstaked]
  have hS : s1.totalStakeShares + (getAcc s s.ownerId).stakeShares =
      s.totalStakeShares + (getAcc s1 s.ownerId).stakeShares := by
    rcases h with rfl | ⟨b, h⟩
    · rfl
    · rw [internalPing_ok] at h
      rcases h with ⟨_, rfl, _⟩ | ⟨_, _, _, _, _, s2, hd, rfl⟩
      · rfl
      · unfold distributeIf at hd
        split at hd
        · rw [distribute_ok] at hd
          obtain ⟨fee, n, _, _, _, _, _, rfl⟩ := hd
          have hacc := distributed_getAcc { s with lastEpochHeight := e.epochHeight } fee n
            (e.accountLockedBalance + e.accountBalance - e.attachedDeposit - s.lastTotalBalance)
            s.ownerId
          have hacc' := congrArg Account.stakeShares hacc
          have h0 : (getAcc { s with lastEpochHeight := e.epochHeight } s.ownerId).stakeShares =
            (getAcc s s.ownerId).stakeShares := rfl
          by_cases hn : 0 < n
          · rw [if_pos ⟨rfl, hn⟩] at hacc'
            simp only at hacc'
            rw [h0] at hacc'
            refine Eq.trans ?_ (congrArg (s.totalStakeShares + ·) hacc'.symm)
            change s.totalStakeShares + n + _ = _
            omega
          · rw [if_neg (fun x => hn x.2)] at hacc'
            refine Eq.trans ?_ (congrArg (s.totalStakeShares + ·) hacc'.symm)
            change s.totalStakeShares + n + _ = s.totalStakeShares + (getAcc s s.ownerId).stakeShares
            omega
        · rw [pure_ok] at hd; subst hd; rfl
  have hr := rest_step hA hi hpf.inv hpf.price hpf.others hU hS
  refine le_trans ?_ hr
  have h1 : (0 : ℚ) ≤ price s * ((getAcc s1 s.ownerId).stakeShares -
      (getAcc s s.ownerId).stakeShares) := by
    refine mul_nonneg (price_nonneg s) ?_
    have h2 : ((getAcc s s.ownerId).stakeShares : ℚ) ≤ (getAcc s1 s.ownerId).stakeShares := by
      exact_mod_cast hpf.shares s.ownerId
    linarith
  rw [hpf.unstaked]
  split
  · linarith
  · linarith

theorem price_mul_le {s0 : Nat} {s : Pool} (hi : PoolInv s0 s) (n : Nat) :
    ((s.totalStakedBalance * n / s.totalStakeShares : Nat) : ℚ) ≤ price s * n ∧
    price s * n ≤
      ((s.totalStakedBalance * n + (s.totalStakeShares - 1)) / s.totalStakeShares : Nat) := by
  have hS : (0 : ℚ) < s.totalStakeShares := by exact_mod_cast hi.S_pos
  have hS0 := hi.S_pos
  have e : price s * n = ((s.totalStakedBalance * n : Nat) : ℚ) / s.totalStakeShares := by
    unfold price; push_cast; ring
  rw [e]
  constructor
  · rw [le_div_iff₀ hS]
    exact_mod_cast Nat.div_mul_le_self _ _
  · rw [div_le_iff₀ hS]
    generalize s.totalStakedBalance * n = y
    generalize s.totalStakeShares = S at *
    have h1 := Nat.div_add_mod (y + (S - 1)) S
    have h2 := Nat.mod_lt (y + (S - 1)) hS0
    have h3 : y ≤ (y + (S - 1)) / S * S := by
      rw [Nat.mul_comm]; omega
    exact_mod_cast h3

theorem rest_deposit {s0 x : Nat} {e : Env} {s s' : Pool} {A : List AccountId} (hA : A.Nodup)
    (hi : PoolInv s0 s) (h : internalDeposit e s = .ok (s', x)) :
    rest A s + (if e.predecessor ∈ A then 0 else (e.attachedDeposit : ℚ)) ≤ rest A s' := by
  obtain ⟨of, hx, hT, hS, hlt, hsu, hacc⟩ := deposit_facts hi h
  have := rest_step hA hi of.inv of.price of.others
    (by rw [hacc, norm_unstaked, hsu]; simp only; omega) (by rw [hacc, norm_shares, hS])
  refine le_trans ?_ this
  rw [hacc, norm_unstaked, norm_shares]
  split
  · exact le_refl _
  · push_cast; linarith

theorem rest_withdraw {s0 x : Nat} {e : Env} {s s' : Pool} {effs : List Eff} {A : List AccountId}
    (hA : A.Nodup) (hi : PoolInv s0 s) (h : internalWithdraw e s x = .ok (s', effs)) :
    rest A s - (if e.predecessor ∈ A then 0 else (x : ℚ)) ≤ rest A s' := by
  obtain ⟨of, he, hT, hS, hlt, hsu, hx0, hxle, _, _, hacc⟩ := withdraw_facts hi h
  have := rest_step hA hi of.inv of.price of.others
    (by rw [hacc, norm_unstaked]; simp only; omega) (by rw [hacc, norm_shares, hS])
  refine le_trans ?_ this
  rw [hacc, norm_unstaked, norm_shares]
  split
  · linarith
  · push_cast [Nat.cast_sub hxle]; linarith

theorem rest_stake {s0 x : Nat} {e : Env} {s s' : Pool} {A : List AccountId} (hA : A.Nodup)
    (hi : PoolInv s0 s) (h : internalStake e s x = .ok s') : rest A s ≤ rest A s' := by
  obtain ⟨of, hlt, n, c, up, hx0, hn0, hc0, hnE, hcE, hupE, hcle, hT, hS, hsu, hacc⟩ :=
    stake_facts hi h
  have := rest_step hA hi of.inv of.price of.others
    (by rw [hacc]; simp only; omega) (by rw [hacc, hS]; simp only; omega)
  refine le_trans ?_ this
  rw [hacc]
  have h1 := (price_mul_le hi n).1
  rw [← hcE] at h1
  split
  · linarith
  · push_cast [Nat.cast_sub hcle]
    have e2 : price s * (((getAcc s e.predecessor).stakeShares : ℚ) + n -
      (getAcc s e.predecessor).stakeShares) = price s * n := by ring
    rw [e2]
    linarith

theorem rest_unstake {s0 x : Nat} {e : Env} {s s' : Pool} {A : List AccountId} (hA : A.Nodup)
    (hi : PoolInv s0 s) (h : innerUnstake e s x = .ok s') : rest A s ≤ rest A s' := by
  obtain ⟨of, hlt, n, rcv, dn, hx0, hn0, hr0, hnE, hrE, hdE, hnle, hT, hS, hsu, hacc⟩ :=
    unstake_facts hi h
  have := rest_step hA hi of.inv of.price of.others
    (by rw [hacc]; simp only; omega) (by rw [hacc]; simp only; omega)
  refine le_trans ?_ this
  rw [hacc]
  have h1 := (price_mul_le hi n).2
  rw [← hrE] at h1
  split
  · linarith
  · push_cast [Nat.cast_sub hnle]
    have e2 : price s * (((getAcc s e.predecessor).stakeShares : ℚ) - n -
      (getAcc s e.predecessor).stakeShares) = - (price s * n) := by ring
    rw [e2]
    linarith

/-- What a call leaves to the rest. -/
theorem rest_exec {s0 : Nat} {e : Env} {s s' : Pool} {c : Call} {effs : List Eff}
    {A : List AccountId} (hA : A.Nodup) (hi : PoolInv s0 s) (h : exec e s c = .ok (s', effs)) :
    rest A s + (if e.predecessor ∈ A then 0 else (e.attachedDeposit : ℚ) - paidOut effs) ≤
      rest A s' := by
  obtain ⟨s1, hp, hb⟩ := exec_cases h
  have hi1 := (pingRel_facts hi hp).inv
  have h0 := rest_ping hA hi hp
  cases hb with
  | idle _ hd hn =>
    rw [paidOut_noTransfer hn, hd]
    split <;> norm_num <;> linarith
  | admin key fee paused _ hd hn =>
    rw [paidOut_noTransfer hn, hd]
    change _ ≤ rest A s1
    split <;> norm_num <;> linarith
  | deposit hd hn =>
    have h1 := rest_deposit hA hi1 hd
    rw [paidOut_noTransfer hn]
    split at h1 <;> rename_i hw <;> simp only [hw, if_true, if_false, Nat.cast_zero] <;> linarith
  | depositStake hd hs hn =>
    have h1 := rest_deposit hA hi1 hd
    have h2 := rest_stake hA (deposit_facts hi1 hd).1.inv hs
    rw [paidOut_noTransfer hn]
    split at h1 <;> rename_i hw <;> simp only [hw, if_true, if_false, Nat.cast_zero] <;> linarith
  | @withdraw _ _ x effs1 effs2 _ hd hx hn =>
    have h1 := rest_withdraw hA hi1 hx
    have he := (withdraw_facts hi1 hx).2.1
    have hpo : paidOut (effs1 ++ effs2) = x := by
      have h2 := paidOut_noTransfer hn
      rw [he]
      simpa [paidOut] using h2
    rw [hpo, hd]
    split at h1 <;> rename_i hw <;> simp only [hw, if_true, if_false, Nat.cast_zero] <;> linarith
  | stake _ hd hs hn =>
    have h1 := rest_stake hA hi1 hs
    rw [paidOut_noTransfer hn, hd]
    split <;> norm_num <;> linarith
  | unstake _ hd hs hn =>
    have h1 := rest_unstake hA hi1 hs
    rw [paidOut_noTransfer hn, hd]
    split <;> norm_num <;> linarith

/-- What an event can bring to the group. -/
theorem gain_step {cfg : Cfg} {s0 : Nat} {w : World} {A : List AccountId} (hA : A.Nodup)
    (h : WInv cfg s0 w) (ev : Ev) :
    worth A (step cfg w ev).pool + over A (step cfg w ev).withdrawn + over A w.deposited +
        w.roundings ≤
      worth A w.pool + over A w.withdrawn + over A (step cfg w ev).deposited +
        (step cfg w ev).roundings + ((distributionOf cfg w ev).map (·.reward)).sum := by
  have hcov := h.cover
  unfold distributionOf
  have hr := step_rel cfg w ev
  generalize step cfg w ev = w' at hr ⊢
  cases hr with
  | env h1 h2 h3 h4 => rw [h1, h2, h3, h4, if_pos rfl]; simp
  | callback => rw [if_pos rfl]; simp
  | @call who att c p effs he _ hx =>
    have hf := call_facts h.pool hx
    have hrest := rest_exec hA h.pool hx
    have hsum := worth_add_rest h.pool A
    have hsum' := worth_add_rest hf.inv A
    have hsolv : (p.totalStakedBalance : ℚ) + sumUnstaked p + w.pool.lastTotalBalance ≤
        w.pool.totalStakedBalance + sumUnstaked w.pool + p.lastTotalBalance +
          ((if c.isRounding then 1 else 0 : Nat) : ℚ) := by exact_mod_cast hf.solv
    have hD := over_one hA (f := w.deposited) (who := who)
      (g := fun a => w.deposited a + (if a = who then att else 0)) (fun a ha => by simp [ha])
    have hW := over_one hA (f := w.withdrawn) (who := who)
      (g := fun a => w.withdrawn a + paidTo a effs)
      (fun a ha => by rw [hf.paidOthers a ha]; rfl)
    have hpd := hf.paid
    have hL : (p.lastTotalBalance : ℚ) + paidOut effs =
        w.pool.lastTotalBalance + att +
        ((if p.lastEpochHeight = w.pool.lastEpochHeight then 0
          else w.liquid + w.locked - w.pool.lastTotalBalance : Nat) : ℚ) := by
      have hle := hf.paidLe
      rcases exec_snapshot h.pool hx with ⟨h1, h2⟩ | ⟨h1, h1', h2⟩
      · rw [if_pos h1]
        simp only [mkEnv] at h2
        exact_mod_cast h2
      · rw [if_neg (by rw [h1]; exact h1')]
        simp only [mkEnv] at h2
        have h3 : p.lastTotalBalance + paidOut effs = w.pool.lastTotalBalance + att +
          (w.liquid + w.locked - w.pool.lastTotalBalance) := by omega
        exact_mod_cast h3
    simp only [mkEnv] at hrest hpd
    have hR : ((((if (commit w who att c p effs).pool.lastEpochHeight = w.pool.lastEpochHeight
        then [] else
          [{ stake := w.pool.totalStakedBalance
             reward := w.liquid + w.locked - w.pool.lastTotalBalance
             fee := (w.liquid + w.locked - w.pool.lastTotalBalance) *
               w.pool.rewardFee.numerator / w.pool.rewardFee.denominator }]) :
          List Distribution).map (·.reward)).sum) =
        (if p.lastEpochHeight = w.pool.lastEpochHeight then 0
          else w.liquid + w.locked - w.pool.lastTotalBalance) := by
      have hE : (commit w who att c p effs).pool.lastEpochHeight = p.lastEpochHeight := rfl
      rw [hE]
      split <;> simp
    rw [hR]
    simp only [commit]
    push_cast at hsolv hL ⊢
    have hc : (over A (fun a => w.withdrawn a + paidTo a effs) : ℚ) + over A w.deposited +
        (if who ∈ A then (att : ℚ) - paidOut effs else 0) =
        over A w.withdrawn + over A (fun a => w.deposited a + (if a = who then att else 0)) := by
      by_cases hw : who ∈ A
      · simp only [hw, if_true] at hD hW ⊢
        have h1 : (over A (fun a => w.withdrawn a + paidTo a effs) : ℚ) + w.withdrawn who =
          over A w.withdrawn + (w.withdrawn who + paidOut effs) := by
          rw [hpd]; exact_mod_cast hW
        have h2 : (over A (fun a => w.deposited a + (if a = who then att else 0)) : ℚ) +
          w.deposited who = over A w.deposited + (w.deposited who + att) := by exact_mod_cast hD
        linarith
      · simp only [hw, if_false, Nat.add_zero] at hD hW ⊢
        rw [hD, hW]; linarith
    by_cases hw : who ∈ A
    · simp only [hw, if_true] at hc hrest; linarith
    · simp only [hw, if_false] at hc hrest; linarith

theorem gain_run {cfg : Cfg} {s0 : Nat} {w : World} {A : List AccountId} (hA : A.Nodup)
    (h : WInv cfg s0 w) (evs : List Ev) :
    worth A (run cfg w evs).pool + over A (run cfg w evs).withdrawn + over A w.deposited +
        w.roundings ≤
      worth A w.pool + over A w.withdrawn + over A (run cfg w evs).deposited +
        (run cfg w evs).roundings + ((distributions cfg w evs).map (·.reward)).sum := by
  induction evs generalizing w with
  | nil => simp [run, distributions]
  | cons ev t ih =>
    have h1 := gain_step hA h ev
    have h2 := ih (step_inv h ev)
    rw [distributions, List.map_append, List.sum_append]
    simp only [run]
    push_cast
    linarith

/-- The balances shown for the group are at most what it has. -/
theorem shown_le {s0 : Nat} {s : Pool} (hi : PoolInv s0 s) (A : List AccountId) :
    (over A (fun a => (getAcc s a).unstaked) : ℚ) + over A (stakedOf s) ≤ worth A s := by
  unfold worth
  have h : ((over A (stakedOf s) : Nat) : ℚ) ≤
      price s * over A (fun a => (getAcc s a).stakeShares) := by
    induction A with
    | nil => simp [over]
    | cons a t ih =>
      simp only [over, List.map_cons, List.sum_cons] at ih ⊢
      have h1 := (price_mul_le hi (getAcc s a).stakeShares).1
      unfold stakedOf at ih ⊢
      push_cast at h1 ih ⊢
      linarith
  linarith

/-- The members of a group that hold shares. -/
def holders (s : Pool) (A : List AccountId) : Nat :=
  A.countP (fun a => decide (0 < (getAcc s a).stakeShares))

/-- The balances shown for the group are less than one yocto per holder of shares below what it has. -/
theorem le_shown {s0 : Nat} {s : Pool} (hi : PoolInv s0 s) (A : List AccountId) :
    (holders s A = 0 → worth A s ≤ (over A (fun a => (getAcc s a).unstaked) : ℚ) +
      over A (stakedOf s)) ∧
    (0 < holders s A → worth A s < (over A (fun a => (getAcc s a).unstaked) : ℚ) +
      over A (stakedOf s) + holders s A) := by
  unfold worth holders
  have hS : (0 : ℚ) < s.totalStakeShares := by exact_mod_cast hi.S_pos
  have hone : ∀ n : Nat, price s * n <
      ((s.totalStakedBalance * n / s.totalStakeShares : Nat) : ℚ) + 1 := by
    intro n
    have e : price s * n = ((s.totalStakedBalance * n : Nat) : ℚ) / s.totalStakeShares := by
      unfold price; push_cast; ring
    rw [e, div_lt_iff₀ hS]
    have := Nat.lt_div_mul_add hi.S_pos (a := s.totalStakedBalance * n)
    have h2 : s.totalStakedBalance * n <
      (s.totalStakedBalance * n / s.totalStakeShares + 1) * s.totalStakeShares := by
      rw [Nat.add_mul, Nat.one_mul]; exact this
    exact_mod_cast h2
  have h : (A.countP (fun a => decide (0 < (getAcc s a).stakeShares)) = 0 →
      price s * over A (fun a => (getAcc s a).stakeShares) ≤ (over A (stakedOf s) : ℚ)) ∧
    (0 < A.countP (fun a => decide (0 < (getAcc s a).stakeShares)) →
      price s * over A (fun a => (getAcc s a).stakeShares) < (over A (stakedOf s) : ℚ) +
        A.countP (fun a => decide (0 < (getAcc s a).stakeShares))) := by
    induction A with
    | nil => simp [over]
    | cons a t ih =>
      have h1 := hone (getAcc s a).stakeShares
      rw [List.countP_cons]
      simp only [over, List.map_cons, List.sum_cons] at ih ⊢
      generalize List.countP (fun a => decide (0 < (getAcc s a).stakeShares)) t = k at *
      by_cases hz : 0 < (getAcc s a).stakeShares
      · simp only [hz, decide_true, if_true]
        refine ⟨fun x => absurd x (by omega), fun _ => ?_⟩
        have h2 : price s * ((t.map fun a => (getAcc s a).stakeShares).sum : Nat) ≤
            (((t.map (stakedOf s)).sum : Nat) : ℚ) + k := by
          rcases Nat.eq_zero_or_pos k with hk | hk
          · have := ih.1 hk; rw [hk, Nat.cast_zero]; linarith
          · exact le_of_lt (ih.2 hk)
        have h3 : stakedOf s a =
          s.totalStakedBalance * (getAcc s a).stakeShares / s.totalStakeShares := rfl
        rw [← h3] at h1
        push_cast at h2 ⊢
        linarith
      · have hz' : (getAcc s a).stakeShares = 0 := by omega
        have h3 : stakedOf s a = 0 := by unfold stakedOf; rw [hz']; simp
        simp only [hz', h3, Nat.lt_irrefl, decide_false, Bool.false_eq_true, if_false, Nat.zero_add,
          Nat.add_zero]
        exact ih
  refine ⟨fun hk => ?_, fun hk => ?_⟩
  · have := h.1 hk; linarith
  · have := h.2 hk; linarith

end Verif.StakingPool
