import Verif.StakingPool.Prompt

/-!
# Staking pool property C114: unstaked tokens can be withdrawn after four epochs, by everybody at once
-/

namespace Verif.StakingPool

open Verif

/-- **C114 (covered).** Suppose the runtime has given back what is above the stake that the pool wanted
at some moment of this epoch or of the three before (`GivenBack`). Then the liquid tokens of the pool cover
the unstaked balances of all accounts that may withdraw now, together, up to one yocto per stake or unstake
accepted so far, and the guarantee fund of 10^12 yocto is left over. -/
theorem C114_due_tokens_are_liquid {cfg : Cfg} {w0 : World} (h : Started cfg w0) {evs : List Ev}
    (hg : GivenBack cfg w0 evs) {A : List AccountId} (hA : A.Nodup) {acc : AccountId → HumanAccount}
    (hacc : ∀ a ∈ A, getAccount (run cfg w0 evs).epoch (run cfg w0 evs).pool a = .ok (acc a))
    (hd : ∀ a ∈ A, (acc a).canWithdraw = true) :
    (A.map (fun a => (acc a).unstakedBalance)).sum + 1000000000000 ≤
      (run cfg w0 evs).liquid + (run cfg w0 evs).roundings := by
  obtain ⟨b, _, hi0, _⟩ := started_inv h
  have hi := run_inv hi0 evs
  have h1 := ripe_liquid hi0 hg
  generalize run cfg w0 evs = w at *
  have hv : ∀ a ∈ A, (acc a).unstakedBalance = (getAcc w.pool a).unstaked ∧
      (getAcc w.pool a).unstakedAvailableEpoch ≤ w.epoch := by
    intro a ha
    have h2 := hacc a ha
    rw [getAccount_total hi.pool] at h2
    have h3 := Except.ok.inj h2
    have h4 := hd a ha
    rw [← h3] at h4 ⊢
    exact ⟨rfl, by simpa using h4⟩
  have h2 := due_le_ripe hA (fun a ha => (hv a ha).2)
  have h3 : A.map (fun a => (acc a).unstakedBalance) = A.map (fun a => (getAcc w.pool a).unstaked) :=
    List.map_congr_left (fun a ha => (hv a ha).1)
  rw [h3]
  unfold over at h2
  unfold guaranteeFund at h1
  omega

/-- **C114 (everybody at once).** In the same situation take any accounts that may withdraw now and have
something to withdraw. If each of them calls `withdraw_all`, one after the other, in any order, each is paid
its whole unstaked balance, nobody else is paid anything, and the pool shows nothing unstaked for
them any more: a run on the pool finds the tokens there. -/
theorem C114_everybody_due_is_paid {cfg : Cfg} {w0 : World} (h : Started cfg w0) {evs : List Ev}
    (hg : GivenBack cfg w0 evs) (hb : Bounded (run cfg w0 evs)) {A : List AccountId} (hA : A.Nodup)
    (hself : cfg.self ∉ A) {acc : AccountId → HumanAccount}
    (hacc : ∀ a ∈ A, getAccount (run cfg w0 evs).epoch (run cfg w0 evs).pool a = .ok (acc a))
    (hd : ∀ a ∈ A, (acc a).canWithdraw = true) (hp : ∀ a ∈ A, 0 < (acc a).unstakedBalance) :
    (∀ a, (run cfg w0 (evs ++ A.map (fun a => .call a 0 .withdrawAll))).withdrawn a =
      (run cfg w0 evs).withdrawn a + if a ∈ A then (acc a).unstakedBalance else 0) ∧
    ∀ a ∈ A, getAccountUnstakedBalance (run cfg w0 evs).epoch
      (run cfg w0 (evs ++ A.map (fun a => .call a 0 .withdrawAll))).pool a = .ok 0 := by
  have h1 := C114_due_tokens_are_liquid h hg hA hacc hd
  obtain ⟨b, _, hi0, _⟩ := started_inv h
  have hi := run_inv hi0 evs
  rw [run_append]
  have hi' := run_inv hi (withdrawals A)
  change (∀ a, (run cfg (run cfg w0 evs) (withdrawals A)).withdrawn a = _) ∧
    ∀ a ∈ A, getAccountUnstakedBalance _ (run cfg (run cfg w0 evs) (withdrawals A)).pool a = _
  generalize run cfg w0 evs = w at *
  have hv : ∀ a ∈ A, (acc a).unstakedBalance = (getAcc w.pool a).unstaked ∧
      (getAcc w.pool a).unstakedAvailableEpoch ≤ w.epoch := by
    intro a ha
    have h2 := hacc a ha
    rw [getAccount_total hi.pool] at h2
    have h3 := Except.ok.inj h2
    have h4 := hd a ha
    rw [← h3] at h4 ⊢
    exact ⟨rfl, by simpa using h4⟩
  have h3 : A.map (fun a => (acc a).unstakedBalance) = A.map (fun a => (getAcc w.pool a).unstaked) :=
    List.map_congr_left (fun a ha => (hv a ha).1)
  rw [h3] at h1
  have hr := hb.roundings
  obtain ⟨r1, r2, _⟩ := withdrawals_pay hi hb hA hself
    (fun a ha => by rw [← (hv a ha).1]; exact hp a ha) (fun a ha => (hv a ha).2)
    (by unfold over; omega)
  refine ⟨fun a => ?_, fun a ha => ?_⟩
  · rw [r1 a]
    by_cases ha : a ∈ A
    · rw [if_pos ha, if_pos ha, (hv a ha).1]
    · rw [if_neg ha, if_neg ha]
  · rw [getUnstaked_total hi'.pool, r2 a ha]

/-- **C114 (four epochs suffice).** Suppose the runtime executes the stake actions of the pool in order and
with success, each at the latest in the epoch after its creation (`Orderly`), and gives back the difference
three epochs after a reduction of the stake (`Unlocks`). If account `a` unstakes in epoch `e`, does not
unstake again, and epoch `e + 4` is reached, then whatever the others did in between, however many of them
left, `withdraw_all` by `a` succeeds and pays the whole unstaked balance. -/
theorem C114_four_epochs_suffice {cfg : Cfg} {w0 : World} (h : Started cfg w0) (before : List Ev)
    {a : AccountId} (ha : a ≠ cfg.self) {d : Nat} {c : Call}
    (hc : c = .unstakeAll ∨ ∃ x, c = .unstake x) {r : Pool × List Eff}
    (hx : exec (mkEnv cfg (run cfg w0 before) a d []) (run cfg w0 before).pool c = .ok r)
    (after : List Ev) (hn : ∀ ev ∈ after, ¬ ev.isUnstakeBy a)
    (ho : Orderly cfg w0 (startLog w0) (before ++ .call a d c :: after))
    (hu : Unlocks cfg w0 (before ++ .call a d c :: after))
    (hb : Bounded (run cfg w0 (before ++ .call a d c :: after)))
    (he : (run cfg w0 before).epoch + 4 ≤ (run cfg w0 (before ++ .call a d c :: after)).epoch)
    {u : Nat}
    (hv : getAccountUnstakedBalance (run cfg w0 (before ++ .call a d c :: after)).epoch
      (run cfg w0 (before ++ .call a d c :: after)).pool a = .ok u) (hpos : 0 < u) :
    (run cfg w0 (before ++ .call a d c :: after ++ [.call a 0 .withdrawAll])).withdrawn a =
      (run cfg w0 (before ++ .call a d c :: after)).withdrawn a + u ∧
    getAccountUnstakedBalance (run cfg w0 (before ++ .call a d c :: after)).epoch
      (run cfg w0 (before ++ .call a d c :: after ++ [.call a 0 .withdrawAll])).pool a = .ok 0 := by
  have hg := givenBack_of_rules h ho hu
  have hrun : run cfg w0 (before ++ .call a d c :: after) =
      run cfg (step cfg (run cfg w0 before) (.call a d c)) after := by rw [run_append]; rfl
  have hr : Reachable cfg (run cfg w0 before) := ⟨w0, before, h, rfl⟩
  rw [hrun] at he
  obtain ⟨hav, _⟩ := C08_available_after_four_epochs hr ha hc hx after hn he
  rw [← hrun] at hav
  obtain ⟨b, _, hi0, _⟩ := started_inv h
  have hi := run_inv hi0 (before ++ .call a d c :: after)
  have hacc := getAccount_total hi.pool (run cfg w0 (before ++ .call a d c :: after)).epoch a
  have hu' : (getAcc (run cfg w0 (before ++ .call a d c :: after)).pool a).unstaked = u := by
    rw [getUnstaked_total hi.pool] at hv
    exact Except.ok.inj hv
  have hmem : ∀ {x : AccountId}, x ∈ [a] → x = a := fun hm => by simpa using hm
  obtain ⟨r1, r2⟩ := C114_everybody_due_is_paid h hg hb (A := [a]) (by simp)
    (by simpa using fun e => ha e.symm)
    (acc := fun _ => _) (fun x hm => by rw [hmem hm]; exact hacc)
    (fun x _ => by
      simp only [isAccountUnstakedBalanceAvailable, hacc, bind_ok, pure_ok] at hav
      obtain ⟨y, hy, hy2⟩ := hav
      rw [Except.ok.inj hy]
      exact hy2)
    (fun x _ => by simp only; omega)
  have r1 := r1 a
  rw [if_pos (by simp)] at r1
  refine ⟨?_, ?_⟩
  · rw [← hu']; exact r1
  · exact r2 a (by simp)

/-! ## A history -/

/-- Alice and Bob stake, a reward arrives, Alice unstakes everything in epoch 8; her stake action is
executed in epoch 9. -/
def leaveEvs : List Ev :=
  [.deliver 0 true, .deliver 0 true, .call "alice.near" (10 * 10 ^ 24) .depositAndStake,
   .deliver 0 true, .deliver 0 true, .epochs 1, .reward 777777777777777777777,
   .call "bob.near" (2 * 10 ^ 24) .depositAndStake, .deliver 0 true]

/-- What happens after Alice's call until epoch 11. -/
def waitEvs : List Ev := [.epochs 1, .deliver 1 true, .epochs 2]

/-- The same until epoch 12, when the runtime gives back the stake. -/
def backEvs : List Ev := [.epochs 1, .deliver 1 true, .epochs 3, .unlock 10000175000000000004375000]

/-- The hypotheses of C114 are met in epoch 12, and Alice is paid. -/
example :
    let evs := leaveEvs ++ .call "alice.near" 0 .unstakeAll :: backEvs
    Orderly demoCfg demo0 (startLog demo0) evs ∧ Unlocks demoCfg demo0 evs ∧
    GivenBack demoCfg demo0 evs ∧ Bounded (run demoCfg demo0 evs) ∧
    getAccount (run demoCfg demo0 evs).epoch (run demoCfg demo0 evs).pool "alice.near" =
      .ok ⟨"alice.near", 10000175000000000004375001, 0, true⟩ ∧
    (run demoCfg demo0 (evs ++ [.call "alice.near" 0 .withdrawAll])).withdrawn "alice.near" =
      10000175000000000004375001 := by
  have ho : Orderly demoCfg demo0 (startLog demo0)
      (leaveEvs ++ .call "alice.near" 0 .unstakeAll :: backEvs) := by decide +kernel
  have hu : Unlocks demoCfg demo0 (leaveEvs ++ .call "alice.near" 0 .unstakeAll :: backEvs) :=
    ⟨leaveEvs ++ [.call "alice.near" 0 .unstakeAll, .epochs 1, .deliver 1 true],
      [.epochs 3, .unlock 10000175000000000004375000], by decide +kernel, by decide +kernel,
      by decide +kernel⟩
  exact ⟨ho, hu, givenBack_of_rules demo0_started ho hu,
    ⟨by decide +kernel, by decide +kernel, by decide +kernel⟩, by decide +kernel, by decide +kernel⟩

/-- Three epochs would not be enough: in epoch 11 both rules of the runtime are respected, and the pool has
almost no liquid tokens. -/
example :
    let evs := leaveEvs ++ .call "alice.near" 0 .unstakeAll :: waitEvs
    Orderly demoCfg demo0 (startLog demo0) evs ∧ Unlocks demoCfg demo0 evs ∧
    (run demoCfg demo0 evs).epoch = 11 ∧ (run demoCfg demo0 evs).liquid = 1000000000000 ∧
    getAccount (run demoCfg demo0 evs).epoch (run demoCfg demo0 evs).pool "alice.near" =
      .ok ⟨"alice.near", 10000175000000000004375001, 0, false⟩ :=
  ⟨by decide +kernel,
    ⟨leaveEvs ++ [.call "alice.near" 0 .unstakeAll], waitEvs, by decide +kernel, by decide +kernel,
      by decide +kernel⟩, by decide +kernel, by decide +kernel, by decide +kernel⟩

end Verif.StakingPool
