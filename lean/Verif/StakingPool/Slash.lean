import Verif.StakingPool.Props2
import Verif.StakingPool.Split

/-!
# What slashing does to a pool

The contract assumes that the tokens on its account never become fewer by themselves
(staking-pool/src/internal.rs:205-211). `World` has no event that takes tokens away; here this
assumption is dropped for one moment.
-/

namespace Verif.StakingPool

open Verif

/-- The runtime takes `x` of the locked tokens away (runtime behaviour, not in /repo). -/
def slash (w : World) (x : Nat) : World := { w with locked := w.locked - x }

/-- What stays the same while a pool is short of tokens; `n` tokens came in. -/
structure Frozen (w w' : World) (n : Nat) : Prop where
  pool : w'.pool = w.pool
  total : w'.liquid + w'.locked = w.liquid + w.locked + n
  epoch : w.epoch ≤ w'.epoch
  roundings : w'.roundings = w.roundings
  deposited : ∀ a, w'.deposited a = w.deposited a
  withdrawn : ∀ a, w'.withdrawn a = w.withdrawn a
  totalDeposited : w'.totalDeposited = w.totalDeposited
  totalWithdrawn : w'.totalWithdrawn = w.totalWithdrawn

/-- The account holds less than accounted, and the epoch of the last distribution is over. -/
structure Short (w : World) : Prop where
  epoch : w.pool.lastEpochHeight < w.epoch
  less : w.liquid + w.locked < w.pool.lastTotalBalance

theorem Short.refuses {cfg : Cfg} {w : World} (h : Short w) {a : AccountId} {d : Nat} {l : List Bool}
    {c : Call} (hc : c.pings = true) {r : Pool × List Eff} :
    exec (mkEnv cfg w a d l) w.pool c ≠ .ok r := by
  intro hx
  obtain ⟨s1, need, _, hp, _⟩ := (exec_split_ok (p := r.1) (effs := r.2) hc).mp hx
  rw [internalPing_ok] at hp
  have h1 := h.epoch
  have h2 := h.less
  rcases hp with ⟨hp, _⟩ | ⟨_, _, _, _, hp, _⟩
  · simp only [mkEnv] at hp; omega
  · simp only [mkEnv] at hp; omega

theorem frozen_call {cfg : Cfg} {w : World} (h : Short w) (a : AccountId) (d : Nat) (l : List Bool)
    (c : Call) : Frozen w (doCall cfg w a d l c) 0 := by
  unfold doCall
  cases hx : exec (mkEnv cfg w a d l) w.pool c with
  | error m => exact ⟨rfl, rfl, Nat.le_refl _, rfl, fun _ => rfl, fun _ => rfl, rfl, rfl⟩
  | ok r =>
    obtain ⟨p, effs⟩ := r
    have hnp : c.pings = false := by
      cases hc : c.pings with
      | false => rfl
      | true => exact absurd hx (h.refuses hc)
    have key : p = w.pool ∧ d = 0 ∧ paidOut effs = 0 ∧ (∀ b, paidTo b effs = 0) ∧
        c.isRounding = false := by
      cases c with
      | vote v i =>
        simp only [exec, vote, bind_ok, notPayable_ok, pure_ok, Prod.mk.injEq] at hx
        obtain ⟨_, h0, _, _, _, _, rfl, rfl⟩ := hx
        exact ⟨rfl, h0, rfl, fun _ => rfl, rfl⟩
      | onStakeAction =>
        simp only [exec, onStakeAction, bind_ok, notPayable_ok] at hx
        obtain ⟨_, h0, _, _, _, _, hx⟩ := hx
        split at hx
        · simp only [bind_ok, pure_ok, Prod.mk.injEq] at hx
          obtain ⟨_, _, rfl, rfl⟩ := hx
          exact ⟨rfl, h0, rfl, fun _ => rfl, rfl⟩
        · simp only [pure_ok, Prod.mk.injEq] at hx
          obtain ⟨rfl, rfl⟩ := hx
          exact ⟨rfl, h0, rfl, fun _ => rfl, rfl⟩
      | _ => cases hnp
    obtain ⟨rfl, rfl, h2, h3, h4⟩ := key
    constructor <;> simp [commit, h2, h3, h4]

theorem frozen_step {cfg : Cfg} {w : World} (h : Short w) (ev : Ev) :
    Frozen w (step cfg w ev) (inflow [ev]) := by
  have rf : ∀ w : World, Frozen w w 0 := fun w =>
    ⟨rfl, rfl, Nat.le_refl _, rfl, fun _ => rfl, fun _ => rfl, rfl, rfl⟩
  cases ev with
  | call who d c =>
    show Frozen w (if who = cfg.self then w else doCall cfg w who d [] c) 0
    split
    · exact rf w
    · exact frozen_call h who d [] c
  | deliver i ok =>
    show Frozen w (deliver cfg w i ok) 0
    unfold deliver
    split
    · exact rf w
    · simp only
      split
      · rename_i liq lck hr
        unfold runStakeAction at hr
        split at hr
        · rename_i hle
          split at hr <;> cases hr
          · refine ⟨rfl, ?_, Nat.le_refl _, rfl, fun _ => rfl, fun _ => rfl, rfl, rfl⟩
            have := hle.2
            simp only
            omega
          · exact ⟨rfl, rfl, Nat.le_refl _, rfl, fun _ => rfl, fun _ => rfl, rfl, rfl⟩
        · cases hr
      · exact ⟨rfl, rfl, Nat.le_refl _, rfl, fun _ => rfl, fun _ => rfl, rfl, rfl⟩
    · rename_i res _
      have hs : Short { w with receipts := w.receipts.eraseIdx i } := ⟨h.epoch, h.less⟩
      have hf := frozen_call (cfg := cfg) hs cfg.self 0 [res] .onStakeAction
      exact ⟨hf.pool, hf.total, hf.epoch, hf.roundings, hf.deposited, hf.withdrawn,
        hf.totalDeposited, hf.totalWithdrawn⟩
  | reward r =>
    refine ⟨rfl, ?_, Nat.le_refl _, rfl, fun _ => rfl, fun _ => rfl, rfl, rfl⟩
    show w.liquid + (w.locked + r) = w.liquid + w.locked + (r + 0)
    omega
  | unlock x =>
    show Frozen w (if x ≤ w.locked then
      { w with locked := w.locked - x, liquid := w.liquid + x } else w) 0
    split
    · refine ⟨rfl, ?_, Nat.le_refl _, rfl, fun _ => rfl, fun _ => rfl, rfl, rfl⟩
      show w.liquid + x + (w.locked - x) = w.liquid + w.locked + 0
      omega
    · exact rf w
  | income r =>
    refine ⟨rfl, ?_, Nat.le_refl _, rfl, fun _ => rfl, fun _ => rfl, rfl, rfl⟩
    show w.liquid + r + w.locked = w.liquid + w.locked + (r + 0)
    omega
  | epochs n =>
    exact ⟨rfl, rfl, Nat.le_add_right _ _, rfl, fun _ => rfl, fun _ => rfl, rfl, rfl⟩

theorem inflow_cons (ev : Ev) (t : List Ev) : inflow (ev :: t) = inflow [ev] + inflow t := by
  cases ev <;> simp [inflow]

theorem frozen_run {cfg : Cfg} {w : World} {evs : List Ev} (h : Short w)
    (hs : w.liquid + w.locked + inflow evs < w.pool.lastTotalBalance) :
    Frozen w (run cfg w evs) (inflow evs) ∧ Short (run cfg w evs) := by
  induction evs generalizing w with
  | nil => exact ⟨⟨rfl, rfl, Nat.le_refl _, rfl, fun _ => rfl, fun _ => rfl, rfl, rfl⟩, h⟩
  | cons ev t ih =>
    rw [inflow_cons] at hs ⊢
    have h1 := frozen_step (cfg := cfg) h ev
    have h2 : Short (step cfg w ev) := by
      refine ⟨?_, ?_⟩
      · rw [h1.pool]; exact Nat.lt_of_lt_of_le h.epoch h1.epoch
      · rw [h1.pool, h1.total]; omega
    obtain ⟨h3, h4⟩ := ih h2 (by rw [h1.pool, h1.total]; omega)
    refine ⟨⟨h3.pool.trans h1.pool, ?_, Nat.le_trans h1.epoch h3.epoch,
      h3.roundings.trans h1.roundings, fun a => (h3.deposited a).trans (h1.deposited a),
      fun a => (h3.withdrawn a).trans (h1.withdrawn a), h3.totalDeposited.trans h1.totalDeposited,
      h3.totalWithdrawn.trans h1.totalWithdrawn⟩, h4⟩
    have := h3.total
    have := h1.total
    show (run cfg (step cfg w ev) t).liquid + (run cfg (step cfg w ev) t).locked = _
    omega

/-- Once the account holds again what was accounted, the invariant holds again. -/
theorem refilled_inv {cfg : Cfg} {s0 : Nat} {w w' : World} (hi : WInv cfg s0 w)
    (hp : w'.pool = w.pool) (he : w.epoch ≤ w'.epoch) (hr : w'.roundings = w.roundings)
    (hd : ∀ a, w'.deposited a = w.deposited a) (hw : ∀ a, w'.withdrawn a = w.withdrawn a)
    (hc : w.pool.lastTotalBalance ≤ w'.liquid + w'.locked) : WInv cfg s0 w' := by
  refine ⟨?_, ?_, ?_, ?_, ?_, ?_, fun a => ?_⟩
  · rw [hp]; exact hi.pool
  · rw [hp]; exact hc
  · rw [hp, hr]; exact hi.solv
  · rw [hp]; exact hi.solvLow
  · rw [hp]; exact Nat.le_trans hi.lastEpoch he
  · rw [hp]; exact hi.key
  · rw [hp, hd, hw]; exact hi.value a

end Verif.StakingPool
