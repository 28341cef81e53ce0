import Verif.StakingPool.Props8

/-!
# Staking pool property C102: the initial balance stays
-/

namespace Verif.StakingPool

open Verif

/-- **C102 (pool).** The tokens the pool was created with, minus the guarantee fund, are never paid out:
at every moment of every history the account has them on top of the claims of any set of delegators, as
long as at most 10^12 stake/unstake operations were rounded. So they are there to pay for the storage. -/
theorem C102_pool_keeps_initial_balance {cfg : Cfg} {w0 : World} (h : Started cfg w0) (evs : List Ev)
    (hr : (run cfg w0 evs).roundings ≤ 10 ^ 12) (l : List AccountId) (hl : l.Nodup) :
    let w := run cfg w0 evs
    ∃ x, sumTotals w.epoch w.pool l = .ok x ∧ x + (w0.liquid - guaranteeFund) ≤ w.liquid + w.locked := by
  intro w
  have hl0 : w0.locked = 0 := by
    obtain ⟨_, _, _, _, _, _, _, _, _, _, _, rfl⟩ := h; rfl
  obtain ⟨b, _, hi0, hb, _⟩ := started_inv h
  have hi : WInv cfg (b - guaranteeFund) w := run_inv hi0 evs
  have hr' : w.roundings ≤ 10 ^ 12 := hr
  have hb' : w0.liquid = b := by omega
  refine ⟨_, sumTotals_eq hi.pool _ l, ?_⟩
  have h1 : (l.map (fun a => (getAcc w.pool a).unstaked)).sum ≤ sumUnstaked w.pool := by
    have := UMap.sum_parts_le w.pool.accounts (fun _ a => a.unstaked) l hl
    have he : l.map (w.pool.accounts.part (fun _ a => a.unstaked))
        = l.map (fun a => (getAcc w.pool a).unstaked) :=
      List.map_congr_left (fun a _ => part_unstaked w.pool a)
    rw [he] at this; exact this
  have h2 : (l.map (stakedOf w.pool)).sum + (b - guaranteeFund) ≤ w.pool.totalStakedBalance := by
    have h3 := UMap.sum_parts_le w.pool.accounts (fun _ a => a.stakeShares) l hl
    have he : l.map (w.pool.accounts.part (fun _ a => a.stakeShares))
        = l.map (fun a => (getAcc w.pool a).stakeShares) :=
      List.map_congr_left (fun a _ => part_shares w.pool a)
    rw [he] at h3
    have hs := hi.pool.shares
    have h4 := sum_floor_le (T := w.pool.totalStakedBalance) (S := w.pool.totalStakeShares)
      (l.map (fun a => (getAcc w.pool a).stakeShares) ++ [b - guaranteeFund])
      (by rw [List.sum_append, List.sum_singleton, hs, Nat.add_comm]; exact Nat.add_le_add_left h3 _)
    rw [List.map_append, List.sum_append, List.map_map, List.map_singleton, List.sum_singleton] at h4
    have hpos : 0 < w.pool.totalStakeShares := hi.pool.S_pos
    have h5 : b - guaranteeFund ≤
        w.pool.totalStakedBalance * (b - guaranteeFund) / w.pool.totalStakeShares := by
      rw [Nat.le_div_iff_mul_le hpos, Nat.mul_comm]
      exact Nat.mul_le_mul_right _ hi.pool.price
    exact Nat.le_trans (Nat.add_le_add_left h5 _) h4
  have h5 := hi.solv; have h6 := hi.cover
  rw [hb']
  unfold guaranteeFund at h5 h2 ⊢
  clear_value w
  omega

/-- The pool of the example was created with 30 NEAR and has more than 40 after a history. -/
example : Started demoCfg demo0 ∧ (run demoCfg demo0 demoEvs).roundings ≤ 10 ^ 12 ∧
    ["alice.near", "bob.near", "owner.near"].Nodup :=
  ⟨demo0_started, by decide +kernel, by decide +kernel⟩

end Verif.StakingPool
