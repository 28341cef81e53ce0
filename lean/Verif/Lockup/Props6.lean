import Verif.Lockup.Props5
import Verif.Lockup.Coverage

/-!
# Lockup property C102: the storage reserve stays
-/

namespace Verif.Lockup

open Verif

/-! ## Helper lemmas -/

/-- What a method attaches to its promise leaves the storage reserve on the account. -/
theorem attached_reserve {e : Env} {s s' : Lockup} {c : Call} {eff : Option Eff}
    (h : exec e s c = .ok (s', eff)) :
    effAttached eff = 0 ∨ effAttached eff + minBalanceForStorage ≤ e.accountBalance := by
  cases c with
  | owner c =>
    obtain ⟨_, _, _, hr⟩ := execOwner_rel h
    cases hr with
    | op c si ext cb h1 h2 h3 h4 h5 =>
      cases h3 with
      | deposit a h6 h7 =>
        right; unfold getAccountBalance at h7
        show a + _ ≤ _
        omega
      | depositAndStake a h6 h7 =>
        right; unfold getAccountBalance at h7
        show a + _ ≤ _
        omega
      | _ => exact .inl rfl
    | transfer a r l h1 h2 h3 h4 h5 =>
      right
      simp only [getLiquidOwnersBalance, bind_ok, pure_ok] at h4
      obtain ⟨o, _, rfl⟩ := h4
      unfold getAccountBalance at h5
      show a + _ ≤ _
      omega
    | _ => exact .inl rfl
  | foundation c =>
    obtain ⟨_, _, hr⟩ := execFoundation_rel h
    cases hr with
    | withdraw r u h1 h2 h3 =>
      right
      unfold getAccountBalance at h3 ⊢
      show min _ _ + _ ≤ _
      omega
    | _ => exact .inl rfl
  | callback cb =>
    simp only [exec, bind_ok, notPayable_ok] at h
    obtain ⟨_, _, h⟩ := h
    obtain ⟨_, r, _, hr⟩ := execCallback_rel h
    cases hr <;> exact .inl rfl

theorem reserve_doCall (cfg : Cfg) (w : World) (who : AccountId) (att : Nat) (r : Option PResult)
    (c : Call) : min w.bal minBalanceForStorage ≤ (doCall cfg w who att r c).bal := by
  unfold doCall
  split
  · rename_i c' eff hx
    split
    · show _ ≤ w.bal + att - effAttached eff
      have h1 : (mkEnv cfg w who att r).accountBalance = w.bal + att := rfl
      rcases attached_reserve hx with h | h
      · rw [h]; omega
      · rw [h1] at h; omega
    · exact Nat.min_le_left _ _
  · exact Nat.min_le_left _ _

theorem reserve_runExt (cfg : Cfg) (w : World) (p : Pending) (r : PResult) :
    (runExt cfg w p r).2.bal = w.bal := by
  unfold runExt
  split <;> repeat' (first | rfl | split)

theorem reserve_step (cfg : Cfg) (w : World) (ev : Ev) :
    min w.bal minBalanceForStorage ≤ (step cfg w ev).bal := by
  cases ev with
  | call who att c =>
    simp only [step]
    split
    · exact Nat.min_le_left _ _
    · exact reserve_doCall ..
  | execute i r =>
    simp only [step, execute]
    split
    · rename_i ext cb _
      have h := reserve_runExt cfg w ⟨ext, cb, .sent⟩ r
      split
      · show _ ≤ (runExt cfg w ⟨ext, none, .sent⟩ r).2.bal
        rw [h]; exact Nat.min_le_left _ _
      · rename_i cb _
        show _ ≤ (runExt cfg w ⟨ext, some cb, .sent⟩ r).2.bal
        rw [h]; exact Nat.min_le_left _ _
    · exact Nat.min_le_left _ _
  | callback i =>
    simp only [step, callback]
    split
    · exact reserve_doCall cfg { w with pend := w.pend.eraseIdx i } ..
    · exact Nat.min_le_left _ _
  | arrive x =>
    simp only [step]
    split
    · show _ ≤ w.bal + x; omega
    · exact Nat.min_le_left _ _
  | income x => show _ ≤ w.bal + x; omega
  | tick dt => exact Nat.min_le_left _ _
  | poolReward x => exact Nat.min_le_left _ _
  | poolLoss x =>
    simp only [step]
    split <;> exact Nat.min_le_left _ _

/-! ## C102 -/

/-- **C102 (lockup).** No method of the lockup ever pays out of the 3.5 NEAR that are reserved for the
storage: whoever calls what, and whatever staking pools and other contracts answer, the account keeps
the smaller of its balance and 3.5 NEAR. (Rebates and other income only add to it; a full access key,
which needs that nothing is locked, ends the control of the contract.) -/
theorem C102_storage_reserve_stays (cfg : Cfg) (w : World) (evs : List Ev) :
    min w.bal (35 * 10 ^ 23) ≤ (run cfg w evs).bal := by
  have hm : minBalanceForStorage = 35 * 10 ^ 23 := by unfold minBalanceForStorage; norm_num
  rw [← hm]
  clear hm
  induction evs generalizing w with
  | nil => exact Nat.min_le_left _ _
  | cons ev t ih =>
    have h1 := reserve_step cfg w ev
    have h2 := ih (step cfg w ev)
    show _ ≤ (run cfg (step cfg w ev) t).bal
    omega

/-- The owner stakes as much as possible: exactly the reserve is left. -/
example : (run demoCfg (startOf demoArgs)
    [.call "owner" 0 (.owner (.selectStakingPool "pool")), .execute 0 (.bool true), .callback 0,
     .call "owner" 0 (.owner (.depositAndStake (tenNear - 35 * 10 ^ 23)))]).bal = 35 * 10 ^ 23 ∧ (startOf demoArgs).bal = tenNear := by decide +kernel

end Verif.Lockup
