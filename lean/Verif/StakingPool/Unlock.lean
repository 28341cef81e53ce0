import Verif.StakingPool.Profit
import Verif.StakingPool.Leave

/-!
# Tokens that are due for withdrawal are liquid (helpers for C114)

`ripe e` is the sum of the unstaked balances that can be withdrawn before epoch `e`. From a moment in
epoch `e - 4` up to epoch `e - 1` it grows only by deposits, because everything unstaked in between is
available in epoch `e` at the earliest. At that moment it was covered by the tokens beyond the stake.
-/

namespace Verif.StakingPool

open Verif

/-- Maps with the same contributions have the same sum. -/
theorem sum_le_of_parts {V : Type} {m m' : UMap AccountId V} {f : AccountId → V → Nat}
    (h : ∀ a, m'.part f a = m.part f a) : m'.sum f ≤ m.sum f := by
  have h1 := UMap.sum_parts_le m f m'.keys m'.nodup
  have h2 : m'.keys.map (m.part f) = m'.keys.map (m'.part f) :=
    List.map_congr_left (fun a _ => (h a).symm)
  rw [h2] at h1
  refine Nat.le_trans (Nat.le_of_eq ?_) h1
  unfold UMap.sum UMap.keys
  rw [List.map_map]
  congr 1
  apply List.map_congr_left
  rintro ⟨k, v⟩ hm
  have hg : m'.get k = some v := UMap.get_eq_some.mpr hm
  simp only [Function.comp, UMap.part, hg]

/-- Maps that differ in one contribution. -/
theorem sum_one {V : Type} {m m' : UMap AccountId V} {f : AccountId → V → Nat} {who : AccountId}
    (h : ∀ a, a ≠ who → m'.part f a = m.part f a) :
    m'.sum f + m.part f who = m.sum f + m'.part f who := by
  have h1 := UMap.sum_remove m who f
  have h2 := UMap.sum_remove m' who f
  have hp : ∀ a, (m'.remove who).part f a = (m.remove who).part f a := by
    intro a
    by_cases ha : a = who
    · subst ha; unfold UMap.part; simp
    · have := h a ha
      unfold UMap.part at this ⊢
      rw [UMap.get_remove_ne (Ne.symm ha), UMap.get_remove_ne (Ne.symm ha)]
      exact this
  have h3 := sum_le_of_parts hp
  have h4 := sum_le_of_parts (fun a => (hp a).symm)
  omega

/-- The unstaked balance of a record, if it can be withdrawn before epoch `e`. -/
def ripeOf (e : Nat) (acc : Account) : Nat :=
  if acc.unstakedAvailableEpoch < e then acc.unstaked else 0

/-- All unstaked balances that can be withdrawn before epoch `e`. -/
def ripe (e : Nat) (s : Pool) : Nat := s.accounts.sum (fun _ acc => ripeOf e acc)

theorem part_ripe (e : Nat) (s : Pool) (a : AccountId) :
    s.accounts.part (fun _ acc => ripeOf e acc) a = ripeOf e (getAcc s a) := by
  unfold UMap.part getAcc
  cases s.accounts.get a with
  | none =>
    simp only [ripeOf, Account.default, Option.getD_none]
    exact (ite_self 0).symm
  | some v => rfl

theorem ripeOf_le (e : Nat) (acc : Account) : ripeOf e acc ≤ acc.unstaked := by
  unfold ripeOf; split
  · exact Nat.le_refl _
  · exact Nat.zero_le _

theorem ripe_le (e : Nat) (s : Pool) : ripe e s ≤ sumUnstaked s :=
  UMap.sum_le_sum (fun _ _ _ => ripeOf_le e _)

/-- A call other than an unstake: the unstaked balance of the caller grows at most by the deposit. -/
theorem exec_unstaked_le {s0 : Nat} {e : Env} {s s' : Pool} {c : Call} {effs : List Eff}
    (hi : PoolInv s0 s) (h : exec e s c = .ok (s', effs)) (hc : c.isUnstake = false) :
    (getAcc s' e.predecessor).unstaked + paidOut effs ≤
      (getAcc s e.predecessor).unstaked + e.attachedDeposit := by
  obtain ⟨s1, hp, hb⟩ := exec_cases h
  have hpf := pingRel_facts hi hp
  have hu := hpf.unstaked e.predecessor
  cases hb with
  | idle _ _ hn => rw [paidOut_noTransfer hn]; omega
  | admin key fee paused _ _ hn =>
    rw [paidOut_noTransfer hn]
    have : (getAcc { s1 with stakePublicKey := key, rewardFee := fee, paused := paused }
      e.predecessor) = getAcc s1 e.predecessor := rfl
    rw [this]; omega
  | deposit h1 hn =>
    rw [paidOut_noTransfer hn]
    obtain ⟨_, _, _, _, _, _, ha⟩ := deposit_facts hpf.inv h1
    rw [ha, norm_unstaked]; simp only; omega
  | depositStake h1 h2 hn =>
    rw [paidOut_noTransfer hn]
    obtain ⟨of, _, _, _, _, _, ha⟩ := deposit_facts hpf.inv h1
    obtain ⟨_, _, n, c, up, _, _, _, _, _, _, _, _, _, _, hb⟩ := stake_facts of.inv h2
    rw [hb, ha, norm_unstaked]; simp only; omega
  | withdraw _ h0 h1 hn =>
    obtain ⟨_, he, _, _, _, _, _, hle, _, _, ha⟩ := withdraw_facts hpf.inv h1
    subst he
    rw [paidOut_append, paidOut_noTransfer hn, ha, norm_unstaked]
    simp only [paidOut, List.map_cons, List.map_nil, List.sum_cons, List.sum_nil]
    omega
  | stake _ _ h1 hn =>
    rw [paidOut_noTransfer hn]
    obtain ⟨_, _, n, c, up, _, _, _, _, _, _, _, _, _, _, ha⟩ := stake_facts hpf.inv h1
    rw [ha]; simp only; omega
  | unstake h0 _ _ _ =>
    rcases h0 with rfl | ⟨rfl, _⟩ <;> simp [Call.isUnstake] at hc

/-- A call in one of the four epochs before `e`: what can be withdrawn before `e` grows at most by the
deposit. -/
theorem ripe_exec {s0 : Nat} {e : Env} {s s' : Pool} {c : Call} {effs : List Eff} {E : Nat}
    (hi : PoolInv s0 s) (h : exec e s c = .ok (s', effs)) (h1 : e.epochHeight < E)
    (h2 : E ≤ e.epochHeight + 4) :
    ripe E s' + paidOut effs ≤ ripe E s + e.attachedDeposit := by
  have hf := call_facts hi h
  have hs := sum_one (m := s.accounts) (m' := s'.accounts) (f := fun _ acc => ripeOf E acc)
    (who := e.predecessor) (fun a ha => by
      rw [part_ripe, part_ripe]
      have h3 := hf.ownerAcc a ha
      unfold ripeOf
      rw [h3.1, h3.2.2])
  rw [part_ripe, part_ripe] at hs
  have key : ripeOf E (getAcc s' e.predecessor) + paidOut effs ≤
      ripeOf E (getAcc s e.predecessor) + e.attachedDeposit := by
    obtain ⟨k1, k2, k3, k4⟩ := exec_epoch hi h
    cases hcu : c.isUnstake
    · have hle := exec_unstaked_le hi h hcu
      have k3 := k3 hcu
      have hr := ripeOf_le E (getAcc s' e.predecessor)
      cases hcw : c.isWithdraw
      · have hp := exec_paid h hcw
        by_cases hE : (getAcc s e.predecessor).unstakedAvailableEpoch < E
        · have : ripeOf E (getAcc s e.predecessor) = (getAcc s e.predecessor).unstaked := by
            unfold ripeOf; rw [if_pos hE]
          omega
        · by_cases hz : 0 < (getAcc s e.predecessor).unstaked ∨
              0 < (getAcc s e.predecessor).stakeShares
          · have := (k4 hcu hcw hz).1
            have : ripeOf E (getAcc s' e.predecessor) = 0 := by
              unfold ripeOf; rw [if_neg (by omega)]
            omega
          · omega
      · have k2 := k2 hcw
        have : ripeOf E (getAcc s e.predecessor) = (getAcc s e.predecessor).unstaked := by
          unfold ripeOf; rw [if_pos (by omega)]
        omega
    · have k1 := (k1 hcu).1
      have hcw : c.isWithdraw = false := by cases c <;> simp_all [Call.isUnstake, Call.isWithdraw]
      have hp := exec_paid h hcw
      have : ripeOf E (getAcc s' e.predecessor) = 0 := by
        unfold ripeOf; rw [if_neg (by omega)]
      omega
  unfold ripe
  omega

/-- The tokens on the account cover what is ripe plus a fixed amount and what came in. -/
theorem ripe_step {cfg : Cfg} {s0 : Nat} {w : World} (h : WInv cfg s0 w) (ev : Ev) {E B : Nat}
    (h1 : w.epoch < E) (h2 : E ≤ w.epoch + 4)
    (hb : B + ripe E w.pool + guaranteeFund ≤ w.liquid + w.locked + w.roundings) :
    B + inflow [ev] + ripe E (step cfg w ev).pool + guaranteeFund ≤
      (step cfg w ev).liquid + (step cfg w ev).locked + (step cfg w ev).roundings := by
  have hr := step_rel cfg w ev
  generalize step cfg w ev = w' at hr ⊢
  cases hr with
  | env h3 h4 _ _ _ _ _ h5 => rw [h3, h4, h5]; omega
  | callback he _ _ => subst he; simpa [inflow] using hb
  | @call who att c p effs he _ hx =>
    subst he
    have h3 := ripe_exec h.pool hx (E := E) (by simpa [mkEnv] using h1) (by simpa [mkEnv] using h2)
    have h4 := (call_facts h.pool hx).paidLe
    simp only [mkEnv] at h3 h4
    simp only [commit, inflow]
    split <;> omega

theorem ripe_run {cfg : Cfg} {s0 : Nat} {w : World} (h : WInv cfg s0 w) (evs : List Ev) {E B : Nat}
    (h1 : (run cfg w evs).epoch < E) (h2 : E ≤ w.epoch + 4)
    (hb : B + ripe E w.pool + guaranteeFund ≤ w.liquid + w.locked + w.roundings) :
    B + inflow evs + ripe E (run cfg w evs).pool + guaranteeFund ≤
      (run cfg w evs).liquid + (run cfg w evs).locked + (run cfg w evs).roundings := by
  induction evs generalizing w B with
  | nil => exact hb
  | cons ev t ih =>
    have h3 : w.epoch < E := Nat.lt_of_le_of_lt (run_epoch_le cfg w (ev :: t)) h1
    have h4 := ripe_step h ev h3 h2 hb
    have h5 := ih (step_inv h ev) h1 (Nat.le_trans h2
      (by have := step_epoch_le cfg w ev; omega)) h4
    rw [inflow_cons]
    show B + (inflow [ev] + inflow t) + ripe E (run cfg (step cfg w ev) t).pool + guaranteeFund ≤
      (run cfg (step cfg w ev) t).liquid + (run cfg (step cfg w ev) t).locked +
      (run cfg (step cfg w ev) t).roundings
    omega

/-- The stake the pool wants, plus the tokens it has not looked at yet. -/
def wanted (w : World) : Nat :=
  w.pool.totalStakedBalance + (w.liquid + w.locked - w.pool.lastTotalBalance)

/-- The runtime has given back what it should: the locked balance is at most the stake that the pool
wanted at some moment `pre` of the current epoch or of the three epochs before, plus the tokens that came
in since (rewards are added to the locked balance). -/
def GivenBack (cfg : Cfg) (w0 : World) (evs : List Ev) : Prop :=
  ∃ pre post, evs = pre ++ post ∧ (run cfg w0 evs).epoch ≤ (run cfg w0 pre).epoch + 3 ∧
    (run cfg w0 evs).locked ≤ wanted (run cfg w0 pre) + inflow post

theorem ripe_liquid {cfg : Cfg} {s0 : Nat} {w0 : World} (h : WInv cfg s0 w0) {evs : List Ev}
    (hg : GivenBack cfg w0 evs) :
    ripe ((run cfg w0 evs).epoch + 1) (run cfg w0 evs).pool + guaranteeFund ≤
      (run cfg w0 evs).liquid + (run cfg w0 evs).roundings := by
  obtain ⟨pre, post, rfl, he, hl⟩ := hg
  rw [run_append] at he hl ⊢
  have hi := run_inv h pre
  generalize run cfg w0 pre = w at *
  have h0 : wanted w + ripe (w.epoch + 4) w.pool + guaranteeFund ≤
      w.liquid + w.locked + w.roundings := by
    have h1 := ripe_le (w.epoch + 4) w.pool
    have h2 := hi.solv
    have h3 := hi.cover
    unfold wanted
    omega
  have h1 := ripe_run hi post (E := w.epoch + 4) (by omega) (Nat.le_refl _) h0
  have h2 : ripe ((run cfg w post).epoch + 1) (run cfg w post).pool ≤
      ripe (w.epoch + 4) (run cfg w post).pool := by
    apply UMap.sum_le_sum
    intro _ acc _
    unfold ripeOf
    split
    · rw [if_pos (by omega)]
    · exact Nat.zero_le _
  omega

/-- A group of accounts whose balances are due. -/
theorem due_le_ripe {s : Pool} {A : List AccountId} (hA : A.Nodup) {e : Nat}
    (hd : ∀ a ∈ A, (getAcc s a).unstakedAvailableEpoch ≤ e) :
    over A (fun a => (getAcc s a).unstaked) ≤ ripe (e + 1) s := by
  have h1 := UMap.sum_parts_le s.accounts (fun _ acc => ripeOf (e + 1) acc) A hA
  have h2 : A.map (s.accounts.part (fun _ acc => ripeOf (e + 1) acc)) =
      A.map (fun a => (getAcc s a).unstaked) := by
    apply List.map_congr_left
    intro a ha
    rw [part_ripe]
    unfold ripeOf
    have := hd a ha
    rw [if_pos (Nat.lt_succ_of_le this)]
  rw [h2] at h1
  exact h1

/-- A withdrawal of everything, in a state with enough liquid tokens. -/
theorem withdrawAll_pays {cfg : Cfg} {w : World} {s0 : Nat} (hi : WInv cfg s0 w) (hb : Bounded w)
    {a : AccountId} (ha : a ≠ cfg.self) (h1 : 0 < (getAcc w.pool a).unstaked)
    (h2 : (getAcc w.pool a).unstakedAvailableEpoch ≤ w.epoch)
    (h3 : (getAcc w.pool a).unstaked ≤ w.liquid) :
    ∃ p effs, step cfg w (.call a 0 .withdrawAll) = commit w a 0 .withdrawAll p effs ∧
      exec (mkEnv cfg w a 0 []) w.pool .withdrawAll = .ok (p, effs) ∧
      paidTo a effs = (getAcc w.pool a).unstaked ∧ (getAcc p a).unstaked = 0 := by
  obtain ⟨s1, b, hp⟩ := ping_total hi hb a 0 [] (by norm_num)
  obtain ⟨hpf, hfit, hkey⟩ := ping_fits hi hb hp
  have hun := hpf.unstaked a
  have heps := ping_epochs hp a
  have hcl := hfit.claims
  have hle := unstaked_le_sum s1 a
  obtain ⟨s2, hw⟩ : ∃ s2, internalWithdraw (mkEnv cfg w a 0 []) s1 (getAcc s1 a).unstaked =
      .ok (s2, [.transfer a (getAcc s1 a).unstaked]) :=
    ⟨_, internalWithdraw_ok.mpr ⟨by omega, Nat.le_refl _, by simp only [mkEnv]; omega,
      by simp only [mkEnv]; omega, by omega, rfl, rfl⟩⟩
  have wf := withdraw_facts hpf.inv hw
  obtain ⟨effs2, hre⟩ := restakeIf_total (e := mkEnv cfg w a 0 []) b
    (by rw [wf.1.paused, wf.1.key]; exact hkey)
  have hx : exec (mkEnv cfg w a 0 []) w.pool .withdrawAll =
      .ok (s2, [.transfer a (getAcc s1 a).unstaked] ++ effs2) := by
    simp only [exec, withdrawAll, bind_ok, notPayable_ok, pure_ok, Prod.exists, Prod.mk.injEq]
    exact ⟨(), rfl, s1, b, hp, _, _, hw, effs2, hre, rfl, rfl⟩
  refine ⟨_, _, ?_, hx, ?_, ?_⟩
  · simp only [step, if_neg ha, doCall, hx]
  · rw [paidTo_append, paidTo_noTransfer (restakeIf_noTransfer hre)]
    simp [paidTo, hun]
  · have := congrArg Account.unstaked wf.2.2.2.2.2.2.2.2.2.2
    rw [norm_unstaked] at this
    simpa [mkEnv] using this

/-- Everybody of a list withdraws, one after the other. -/
def withdrawals (A : List AccountId) : List Ev := A.map (fun a => .call a 0 .withdrawAll)

theorem withdrawals_pay {cfg : Cfg} {s0 : Nat} {A : List AccountId} {w : World} (hi : WInv cfg s0 w)
    (hb : Bounded w) (hA : A.Nodup) (hs : cfg.self ∉ A)
    (h1 : ∀ a ∈ A, 0 < (getAcc w.pool a).unstaked)
    (h2 : ∀ a ∈ A, (getAcc w.pool a).unstakedAvailableEpoch ≤ w.epoch)
    (h3 : over A (fun a => (getAcc w.pool a).unstaked) ≤ w.liquid) :
    (∀ a, (run cfg w (withdrawals A)).withdrawn a =
      w.withdrawn a + if a ∈ A then (getAcc w.pool a).unstaked else 0) ∧
    (∀ a ∈ A, (getAcc (run cfg w (withdrawals A)).pool a).unstaked = 0) ∧
    (∀ a, a ∉ A → (getAcc (run cfg w (withdrawals A)).pool a).unstaked =
      (getAcc w.pool a).unstaked) := by
  induction A generalizing w with
  | nil => exact ⟨fun a => by simp [withdrawals, run], by simp, fun _ _ => rfl⟩
  | cons b t ih =>
    have hn := List.nodup_cons.mp hA
    simp only [over, List.map_cons, List.sum_cons] at h3
    obtain ⟨p, effs, hst, hx, hpaid, hz⟩ := withdrawAll_pays hi hb (a := b)
      (fun e => hs (by simp [e])) (h1 b (by simp)) (h2 b (by simp)) (by omega)
    have hf := call_facts hi.pool hx
    have hp := hf.paid
    simp only [mkEnv] at hp
    have hi' : WInv cfg s0 (commit w b 0 .withdrawAll p effs) := hst ▸ step_inv hi _
    have hb' : Bounded (commit w b 0 .withdrawAll p effs) := by
      have k1 := hb.balance; have k2 := hb.epoch; have k3 := hb.roundings
      exact ⟨by simp only [commit]; omega, k2, by simp only [commit, Call.isRounding]; simpa using k3⟩
    have ho : ∀ a, a ≠ b → (getAcc p a).unstaked = (getAcc w.pool a).unstaked ∧
        (getAcc p a).unstakedAvailableEpoch = (getAcc w.pool a).unstakedAvailableEpoch :=
      fun a ha => ⟨(hf.ownerAcc a ha).1, (hf.ownerAcc a ha).2.2⟩
    have hne : ∀ a ∈ t, a ≠ b := fun a ha e => hn.1 (e ▸ ha)
    have hover : over t (fun a => (getAcc p a).unstaked) =
        (t.map (fun a => (getAcc w.pool a).unstaked)).sum :=
      over_same (fun a ha => (ho a (hne a ha)).1)
    obtain ⟨r1, r2, r3⟩ := ih hi' hb' hn.2 (fun e => hs (by simp [e]))
      (fun a ha => by show 0 < (getAcc p a).unstaked; rw [(ho a (hne a ha)).1]; exact h1 a (by simp [ha]))
      (fun a ha => by
        show (getAcc p a).unstakedAvailableEpoch ≤ w.epoch
        rw [(ho a (hne a ha)).2]; exact h2 a (by simp [ha]))
      (by
        show over t (fun a => (getAcc p a).unstaked) ≤ w.liquid + 0 - paidOut effs
        rw [hover]; omega)
    have hrun : run cfg w (withdrawals (b :: t)) =
        run cfg (commit w b 0 .withdrawAll p effs) (withdrawals t) := by
      show run cfg (step cfg w _) _ = _
      rw [hst]; rfl
    rw [hrun]
    refine ⟨fun a => ?_, fun a ha => ?_, fun a ha => ?_⟩
    · rw [r1 a]
      show w.withdrawn a + paidTo a effs + (if a ∈ t then (getAcc p a).unstaked else 0) = _
      by_cases hab : a = b
      · subst hab
        rw [if_neg hn.1, if_pos (by simp), hpaid]
        omega
      · rw [hf.paidOthers a hab, (ho a hab).1]
        simp only [List.mem_cons, hab, false_or]
        omega
    · by_cases hab : a = b
      · subst hab
        rw [r3 a hn.1]
        exact hz
      · exact r2 a (by simpa [hab] using ha)
    · simp only [List.mem_cons, not_or] at ha
      rw [r3 a ha.2]
      exact (ho a ha.1).1

end Verif.StakingPool
