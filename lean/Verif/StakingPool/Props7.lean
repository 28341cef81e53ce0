import Verif.StakingPool.Props6

/-!
# C13, C03 in histories: the stake receipts, and what the ledgers count

`C13` follows a stake action through the runtime: execution, report, reaction. `C03_ledger` pins the
history variables `deposited` and `withdrawn`, which the statements about gains and losses use, to the
accepted calls of the history.
-/

namespace Verif.StakingPool

open Verif

/-! ## C13 -/

/-- **C13 (execution).** A stake action that the runtime refuses, or that asks for more than the account
has, moves no tokens and is reported to the pool as failed (if a report was requested). An executed one
keeps the sum of liquid and locked tokens, locks at least the amount, and is reported as successful. The
contract state is untouched. -/
theorem C13_stake_action_executed {cfg : Cfg} {w : World} {i amt : Nat} {k : PublicKey} {cb : Bool}
    (hi : w.receipts[i]? = some (.stakeAction amt k cb)) (ok : Bool) :
    let w' := step cfg w (.deliver i ok)
    let good := ok = true ∧ amt ≤ w.liquid + w.locked
    w'.pool = w.pool ∧ w'.epoch = w.epoch ∧ w'.deposited = w.deposited ∧ w'.withdrawn = w.withdrawn ∧
    w'.receipts = w.receipts.eraseIdx i ++ (if cb = true then [.stakeCallback (decide good)] else []) ∧
    (good → w'.liquid + w'.locked = w.liquid + w.locked ∧ w'.locked = max w.locked amt) ∧
    (¬ good → w'.liquid = w.liquid ∧ w'.locked = w.locked) := by
  intro w' good
  have hw : w' = deliver cfg w i ok := rfl
  simp only [deliver, hi] at hw
  by_cases hg : good
  · have hg' : ok = true ∧ amt ≤ w.liquid + w.locked := hg
    have hd : decide good = true := decide_eq_true hg
    rw [hd]
    unfold runStakeAction at hw
    rw [if_pos hg'] at hw
    by_cases hl : w.locked < amt
    · rw [if_pos hl] at hw
      simp only at hw
      rw [hw]
      refine ⟨rfl, rfl, rfl, rfl, ?_, fun _ => ⟨?_, ?_⟩, fun h => absurd hg h⟩
      · cases cb <;> rfl
      · show w.liquid - (amt - w.locked) + amt = _
        omega
      · show amt = _
        omega
    · rw [if_neg hl] at hw
      simp only at hw
      rw [hw]
      refine ⟨rfl, rfl, rfl, rfl, ?_, fun _ => ⟨rfl, ?_⟩, fun h => absurd hg h⟩
      · cases cb <;> rfl
      · show w.locked = _
        omega
  · have hg' : ¬ (ok = true ∧ amt ≤ w.liquid + w.locked) := hg
    have hd : decide good = false := decide_eq_false hg
    rw [hd]
    unfold runStakeAction at hw
    rw [if_neg hg'] at hw
    simp only at hw
    rw [hw]
    refine ⟨rfl, rfl, rfl, rfl, ?_, fun h => absurd h hg, fun _ => ⟨rfl, rfl⟩⟩
    cases cb <;> rfl

example : demo.receipts[1]? = some (.stakeAction 40000777777776777777777780 "key" true) ∧
    40000777777776777777777780 ≤ demo.liquid + demo.locked ∧
    (step demoCfg demo (.deliver 1 true)).receipts.getLast? = some (.stakeCallback true) ∧
    (step demoCfg demo (.deliver 1 false)).receipts.getLast? = some (.stakeCallback false) :=
  ⟨by decide +kernel, by decide +kernel, by decide +kernel, by decide +kernel⟩

/-- **C13 (reaction).** When the report reaches a pool whose staking key is valid, the
pool sends a stake action of zero with its key exactly if the report says failed and tokens are locked;
nothing else changes. -/
theorem C13_report_handled {cfg : Cfg} {w : World} {i : Nat} {r : Bool}
    (hi : w.receipts[i]? = some (.stakeCallback r)) (ok : Bool)
    (hk : cfg.validPublicKey (getStakingKey w.pool) = true) :
    step cfg w (.deliver i ok) =
      { w with receipts := w.receipts.eraseIdx i ++
          (if r = false ∧ 0 < w.locked then [.stakeAction 0 (getStakingKey w.pool) false] else []) } := by
  have h := C13_failed_stake_is_unstaked (cfg := cfg)
    (w := { w with receipts := w.receipts.eraseIdx i }) r hk
  show deliver cfg w i ok = _
  simp only [deliver, hi, doCall]
  rw [h]
  by_cases hc : r = false ∧ 0 < w.locked
  · rw [if_pos hc, if_pos hc]
    simp [commit, paidOut, paidTo, newReceipts, Call.isRounding]
  · rw [if_neg hc, if_neg hc]
    simp [commit, paidOut, paidTo, newReceipts, Call.isRounding]

example : demo.receipts[0]? = some (.stakeCallback true) ∧
    demoCfg.validPublicKey (getStakingKey demo.pool) = true ∧
    (step demoCfg (step demoCfg demo (.deliver 1 false)) (.deliver 2 true)).receipts.getLast? =
      some (.stakeAction 0 "key" false) :=
  ⟨by decide +kernel, by decide +kernel, by decide +kernel⟩

/-! ## C03: the ledgers -/

/-- What account `a` attaches to a call that is accepted. -/
def depositBy (cfg : Cfg) (a : AccountId) (w : World) : Ev → Nat
  | .call who att c =>
    if who = a ∧ who ≠ cfg.self ∧ (exec (mkEnv cfg w who att []) w.pool c).isOk = true then att else 0
  | _ => 0

/-- What an accepted call transfers to account `a`. -/
def payoutTo (cfg : Cfg) (a : AccountId) (w : World) : Ev → Nat
  | .call who att c =>
    match exec (mkEnv cfg w who att []) w.pool c with
    | .ok (_, effs) => if who = cfg.self then 0 else paidTo a effs
    | .error _ => 0
  | _ => 0

/-- The sum over a history of a quantity of its events. -/
def total (cfg : Cfg) (f : World → Ev → Nat) (w : World) : List Ev → Nat
  | [] => 0
  | ev :: t => f w ev + total cfg f (step cfg w ev) t

theorem onStakeAction_pays {e : Env} {s p : Pool} {effs : List Eff}
    (h : exec e s .onStakeAction = .ok (p, effs)) (a : AccountId) : paidTo a effs = 0 := by
  simp only [exec, onStakeAction, bind_ok, notPayable_ok, require_ok] at h
  obtain ⟨_, _, _, _, _, _, h⟩ := h
  split at h
  · simp only [bind_ok, require_ok, pure_ok, Prod.mk.injEq] at h
    obtain ⟨_, _, _, rfl⟩ := h
    rfl
  · simp only [pure_ok, Prod.mk.injEq] at h
    obtain ⟨_, rfl⟩ := h
    rfl

theorem deliver_ledger (cfg : Cfg) (w : World) (i : Nat) (ok : Bool) (a : AccountId) (ha : a ≠ cfg.self) :
    (deliver cfg w i ok).deposited a = w.deposited a ∧ (deliver cfg w i ok).withdrawn a = w.withdrawn a := by
  unfold deliver
  split
  · exact ⟨rfl, rfl⟩
  · dsimp only
    split <;> exact ⟨rfl, rfl⟩
  · unfold doCall
    split
    · rename_i p effs hx
      refine ⟨?_, ?_⟩
      · show w.deposited a + _ = _
        rw [if_neg ha]; rfl
      · show w.withdrawn a + _ = _
        rw [onStakeAction_pays hx]; rfl
    · exact ⟨rfl, rfl⟩

/-- **C03 (the ledgers).** In every history the recorded deposits of an account are exactly what it attached
to accepted calls, and the recorded withdrawals exactly what the pool transferred to it. -/
theorem C03_ledger {cfg : Cfg} {w0 : World} (hs : Started cfg w0) (evs : List Ev) {a : AccountId}
    (ha : a ≠ cfg.self) :
    (run cfg w0 evs).deposited a = total cfg (depositBy cfg a) w0 evs ∧
    (run cfg w0 evs).withdrawn a = total cfg (payoutTo cfg a) w0 evs := by
  have key : ∀ (l : List Ev) (w : World),
      (run cfg w l).deposited a = w.deposited a + total cfg (depositBy cfg a) w l ∧
      (run cfg w l).withdrawn a = w.withdrawn a + total cfg (payoutTo cfg a) w l := by
    intro l
    induction l with
    | nil => intro w; exact ⟨rfl, rfl⟩
    | cons ev t ih =>
      intro w
      obtain ⟨h1, h2⟩ := ih (step cfg w ev)
      simp only [run, total]
      rw [h1, h2]
      suffices h : (step cfg w ev).deposited a = w.deposited a + depositBy cfg a w ev ∧
          (step cfg w ev).withdrawn a = w.withdrawn a + payoutTo cfg a w ev by
        rw [h.1, h.2]
        exact ⟨Nat.add_assoc _ _ _, Nat.add_assoc _ _ _⟩
      cases ev with
      | call who att c =>
        simp only [step, depositBy, payoutTo]
        by_cases hself : who = cfg.self
        · rw [if_pos hself]
          refine ⟨by rw [if_neg (fun h => h.2.1 hself)]; rfl, ?_⟩
          cases exec (mkEnv cfg w who att []) w.pool c with
          | ok r => simp only [if_pos hself]; rfl
          | error m => rfl
        · rw [if_neg hself]
          unfold doCall
          cases hx : exec (mkEnv cfg w who att []) w.pool c with
          | ok r =>
            obtain ⟨p, effs⟩ := r
            refine ⟨?_, ?_⟩
            · show w.deposited a + _ = _
              by_cases hwa : a = who
              · subst hwa
                rw [if_pos rfl, if_pos ⟨rfl, hself, rfl⟩]
              · rw [if_neg hwa, if_neg (fun h => hwa h.1.symm)]
            · simp only [if_neg hself]; rfl
          | error m =>
            refine ⟨?_, rfl⟩
            rw [if_neg (fun h => by cases h.2.2)]; rfl
      | deliver i ok => exact deliver_ledger cfg w i ok a ha
      | reward r => exact ⟨rfl, rfl⟩
      | unlock x =>
        simp only [step]
        split <;> exact ⟨rfl, rfl⟩
      | income r => exact ⟨rfl, rfl⟩
      | epochs n => exact ⟨rfl, rfl⟩
  obtain ⟨_, _, _, _, _, _, p, effs, _, _, _, rfl⟩ := hs
  obtain ⟨h1, h2⟩ := key evs (initWorld p effs _ _)
  rw [h1, h2]
  exact ⟨Nat.zero_add _, Nat.zero_add _⟩

example : Started demoCfg demo0 ∧
    total demoCfg (depositBy demoCfg "alice.near") demo0 demoEvs = 10 * 10 ^ 24 + 3 ∧
    total demoCfg (payoutTo demoCfg "bob.near") demo0
      (demoEvs ++ [.call "bob.near" 0 (.withdraw 5)]) = 5 :=
  ⟨demo0_started, by decide +kernel, by decide +kernel⟩

end Verif.StakingPool
