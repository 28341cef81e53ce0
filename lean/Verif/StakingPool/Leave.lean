import Verif.StakingPool.Props6

/-! # Leaving a pool: `unstake_all` in every state -/

namespace Verif.StakingPool

open Verif

/-- The unlock epoch of every account is at most four epochs ahead. -/
theorem unlock_step {cfg : Cfg} {s0 : Nat} {w : World} (h : WInv cfg s0 w) (a : AccountId) (ev : Ev)
    (hu : (getAcc w.pool a).unstakedAvailableEpoch ≤ w.epoch + 4) :
    (getAcc (step cfg w ev).pool a).unstakedAvailableEpoch ≤ (step cfg w ev).epoch + 4 := by
  have hr := step_rel cfg w ev
  generalize step cfg w ev = w' at hr ⊢
  cases hr with
  | env h1 _ _ _ _ _ h2 => rw [h1]; omega
  | callback _ _ _ => exact hu
  | @call who att c p effs he _ hx =>
    show (getAcc p a).unstakedAvailableEpoch ≤ w.epoch + 4
    by_cases hw : a = who
    · subst hw
      obtain ⟨h1, _, h2, _⟩ := exec_epoch h.pool hx
      cases hc : c.isUnstake
      · have h3 : (getAcc p a).unstakedAvailableEpoch ≤ (getAcc w.pool a).unstakedAvailableEpoch :=
          h2 hc
        omega
      · exact Nat.le_of_eq (h1 hc).1
    · have := ((call_facts h.pool hx).ownerAcc a hw).2.2
      omega

theorem unlock_run {cfg : Cfg} {s0 : Nat} {w : World} (h : WInv cfg s0 w) (a : AccountId)
    (evs : List Ev) (hu : (getAcc w.pool a).unstakedAvailableEpoch ≤ w.epoch + 4) :
    (getAcc (run cfg w evs).pool a).unstakedAvailableEpoch ≤ (run cfg w evs).epoch + 4 := by
  induction evs generalizing w with
  | nil => exact hu
  | cons ev t ih => exact ih (step_inv h ev) (unlock_step h a ev hu)

theorem unlock_soon {cfg : Cfg} {w : World} (h : Reachable cfg w) (a : AccountId) :
    (getAcc w.pool a).unstakedAvailableEpoch ≤ w.epoch + 4 := by
  obtain ⟨w0, evs, hs, rfl⟩ := h
  obtain ⟨b, _, hi, _⟩ := started_inv hs
  refine unlock_run hi a evs ?_
  obtain ⟨dep, owner, key, fee, bal, ep, p, effs, hb, hlt, hn, rfl⟩ := hs
  simp only [new, bind_ok, require_ok, subU_ok, Fee.assertValid_ok, Fee.decode_ok, pure_ok,
    Prod.mk.injEq, initEnv] at hn
  obtain ⟨_, _, _, hd, _, _, _, hf, _, _, _, ⟨h1, rfl⟩, _, _, effs1, h2, rfl, rfl⟩ := hn
  exact Nat.zero_le _

/-- A successful `unstake_all` leaves no share. -/
theorem unstakeAll_shares {cfg : Cfg} {s0 : Nat} {w : World} (hi : WInv cfg s0 w) {a : AccountId}
    {p : Pool} {effs : List Eff} (h : exec (mkEnv cfg w a 0 []) w.pool .unstakeAll = .ok (p, effs)) :
    (getAcc p a).stakeShares = 0 := by
  simp only [exec, unstakeAll, bind_ok, notPayable_ok, pure_ok, Prod.exists, Prod.mk.injEq] at h
  obtain ⟨_, _, s1, b, hp, x, hsd, s2, hu, effs1, hre, rfl, rfl⟩ := h
  have hpf := ping_facts hi.pool hp
  rw [stakedAmountDown_total hpf.inv] at hsd
  cases hsd
  obtain ⟨uf, _, n, rcv, dn, _, _, _, hnE, hrE, _, _, _, _, _, hacc⟩ := unstake_facts hpf.inv hu
  have hn : n = (getAcc s1 a).stakeShares := by
    rw [hnE]; exact Arith.unstake_all_exact hpf.inv.S_pos hpf.inv.price
  have : (getAcc s2 a).stakeShares = (getAcc s1 a).stakeShares - n :=
    congrArg Account.stakeShares hacc
  omega

/-- `unstake_all` in every state: it is accepted and leaves no share, or the account has no stake. -/
theorem unstakeAll_cases {cfg : Cfg} {w : World} (h : Reachable cfg w) (hb : Bounded w)
    (a : AccountId) :
    (∃ p effs, exec (mkEnv cfg w a 0 []) w.pool .unstakeAll = .ok (p, effs) ∧
      (getAcc p a).stakeShares = 0) ∨
    ((∃ m, exec (mkEnv cfg w a 0 []) w.pool .unstakeAll = .error m) ∧
      (getAcc w.pool a).stakeShares = 0) := by
  obtain ⟨s0, hi⟩ := reachable_inv h
  cases hx : exec (mkEnv cfg w a 0 []) w.pool .unstakeAll with
  | ok r => exact .inl ⟨r.1, r.2, rfl, unstakeAll_shares hi hx⟩
  | error m =>
    right
    refine ⟨⟨m, rfl⟩, ?_⟩
    by_contra hne
    have h1 := (stakedOf_pos hi.pool a).mpr (by omega)
    obtain ⟨p, effs, _, _, h2, _⟩ := C05_unstake_all_exact h hb a (getStaked_total hi.pool _ a) h1
    rw [hx] at h2
    cases h2

/-- A withdrawal leaves the shares of a caller who does not own the pool. -/
theorem withdraw_shares {cfg : Cfg} {s0 : Nat} {w : World} (hi : WInv cfg s0 w) {a : AccountId}
    {x : Nat} {p : Pool} {effs : List Eff} (ho : a ≠ w.pool.ownerId)
    (h : exec (mkEnv cfg w a 0 []) w.pool (.withdraw x) = .ok (p, effs)) :
    (getAcc p a).stakeShares = (getAcc w.pool a).stakeShares := by
  simp only [exec, withdraw, bind_ok, notPayable_ok, pure_ok, Prod.exists, Prod.mk.injEq] at h
  obtain ⟨_, _, s1, b, hp, s2, e1, hw, e2, _, rfl, _⟩ := h
  have hpf := ping_facts hi.pool hp
  obtain ⟨_, _, _, _, _, _, _, _, _, _, hac⟩ := withdraw_facts hpf.inv hw
  have := congrArg Account.stakeShares hac
  rw [norm_shares] at this
  refine this.trans ?_
  show (getAcc s1 a).stakeShares = _
  rw [hpf.others a ho]

/-- Unstaking up to the reported staked balance is accepted and credits at least the amount. -/
theorem unstake_credits {cfg : Cfg} {w : World} (h : Reachable cfg w) (hb : Bounded w)
    (a : AccountId) {x : Nat} (h0 : 0 < x) (hx : x ≤ stakedOf w.pool a) :
    ∃ p effs, exec (mkEnv cfg w a 0 []) w.pool (.unstake x) = .ok (p, effs) ∧
      (getAcc w.pool a).unstaked + x ≤ (getAcc p a).unstaked := by
  obtain ⟨s0, hi⟩ := reachable_inv h
  obtain ⟨s1, b, hp⟩ := ping_total hi hb a 0 [] (by norm_num)
  obtain ⟨hpf, hfit, hkey⟩ := ping_fits hi hb hp
  have hst := stakedOf_mono hi.pool hpf.inv hpf.price (hpf.shares a)
  have hep := hb.epoch
  obtain ⟨s2, hu⟩ := unstake_total (e := mkEnv cfg w a 0 []) (x := x) hpf.inv hfit
    (by simp only [mkEnv]; omega) h0 (by simp only [mkEnv]; omega)
  obtain ⟨uf, _, n, rcv, dn, _, _, _, hnE, hrE, _, _, _, _, _, hacc⟩ := unstake_facts hpf.inv hu
  have hk2 : s2.paused = true ∨ (mkEnv cfg w a 0 []).validPublicKey s2.stakePublicKey = true := by
    rw [uf.paused, uf.key]; exact hkey
  obtain ⟨effs, hre⟩ := restake_total hk2
  refine ⟨s2, effs, ?_, ?_⟩
  · simp only [exec, unstake, bind_ok, notPayable_ok, pure_ok, Prod.exists, Prod.mk.injEq]
    exact ⟨(), rfl, s1, b, hp, s2, hu, effs, hre, rfl, rfl⟩
  · have h1 : (getAcc s2 a).unstaked = (getAcc s1 a).unstaked + rcv :=
      congrArg Account.unstaked hacc
    have h2 := hpf.unstaked a
    have h3 : x ≤ rcv := by
      rw [hrE, hnE]; exact Arith.receive_ge hpf.inv.T_pos hpf.inv.S_pos
    omega

theorem stakedOf_zero {s : Pool} {a : AccountId} (h : (getAcc s a).stakeShares = 0) :
    stakedOf s a = 0 := by
  unfold stakedOf; rw [h]; simp

end Verif.StakingPool
