import Verif.System.Model
import Verif.Lockup.Target
import Verif.StakingPool.Props3
import Verif.Whitelist.Props
import Verif.Voting.Props

/-! # The system refines the lockup world with honest pools that lose nothing -/

namespace Verif.System

open Verif

/-- What account `a` has in a pool according to the views of the pool. -/
def worth (a : AccountId) (w : StakingPool.World) : Nat :=
  match StakingPool.getAccountUnstakedBalance w.epoch w.pool a,
    StakingPool.getAccountStakedBalance w.epoch w.pool a with
  | .ok u, .ok x => u + x
  | _, _ => 0

/-- What the lockup has in the pools `S` together. -/
def atPools (cfg : Cfg) (S : AccountId → Bool) (s : Sys) : Nat :=
  s.pools.sum (fun p w => if S p = true then worth cfg.lockup w else 0)

/-- The lockup world that a state of the system implements, counting the pools `S`. -/
def abs (cfg : Cfg) (S : AccountId → Bool) (s : Sys) : Lockup.World :=
  { s.lk with held := atPools cfg S s }

/-- Count all pools. -/
def all : AccountId → Bool := fun _ => true

/-! ## One pool -/

theorem worth_eq {cfg : StakingPool.Cfg} {w : StakingPool.World} (h : StakingPool.Reachable cfg w)
    (a : AccountId) :
    worth a w = (StakingPool.getAcc w.pool a).unstaked + StakingPool.stakedOf w.pool a := by
  obtain ⟨s0, hi⟩ := StakingPool.reachable_inv h
  unfold worth
  rw [StakingPool.getUnstaked_total hi.pool, StakingPool.getStaked_total hi.pool]

theorem worth_run {cfg : StakingPool.Cfg} {w : StakingPool.World}
    (h : StakingPool.Reachable cfg w) (a : AccountId) (evs : List StakingPool.Ev) :
    worth a w + ((StakingPool.run cfg w evs).deposited a - w.deposited a) ≤
      worth a (StakingPool.run cfg w evs) +
        ((StakingPool.run cfg w evs).withdrawn a - w.withdrawn a) := by
  obtain ⟨u, x, u', x', h1, h2, h3, h4, h5, _⟩ := StakingPool.C03_position_value_monotone h a evs
  unfold worth
  rw [h1, h2, h3, h4]
  exact h5

theorem worth_other {cfg : StakingPool.Cfg} {w : StakingPool.World}
    (h : StakingPool.Reachable cfg w) {a : AccountId} {ev : StakingPool.Ev} (hn : ¬ ev.isCallBy a) :
    worth a w ≤ worth a (StakingPool.step cfg w ev) := by
  obtain ⟨s0, hi⟩ := StakingPool.reachable_inv h
  obtain ⟨h1, h2⟩ := StakingPool.step_withdrawn hi hn
  have := worth_run h a [ev]
  simp only [StakingPool.run] at this
  omega

theorem reach_step {cfg : StakingPool.Cfg} {w : StakingPool.World}
    (h : StakingPool.Reachable cfg w) (ev : StakingPool.Ev) :
    StakingPool.Reachable cfg (StakingPool.step cfg w ev) := h.run [ev]

theorem step_call {cfg : StakingPool.Cfg} {w : StakingPool.World} {a : AccountId} {att : Nat}
    {c : StakingPool.Call} {q : StakingPool.Pool} {effs : List StakingPool.Eff} (ha : a ≠ cfg.self)
    (hx : StakingPool.exec (StakingPool.mkEnv cfg w a att []) w.pool c = .ok (q, effs)) :
    StakingPool.step cfg w (.call a att c) = StakingPool.commit w a att c q effs := by
  simp only [StakingPool.step, if_neg ha, StakingPool.doCall, hx]

/-- What the position of the caller does in a successful call. -/
theorem worth_call {cfg : StakingPool.Cfg} {w : StakingPool.World}
    (h : StakingPool.Reachable cfg w) {a : AccountId} {att : Nat} {c : StakingPool.Call}
    {q : StakingPool.Pool} {effs : List StakingPool.Eff} (ha : a ≠ cfg.self)
    (hx : StakingPool.exec (StakingPool.mkEnv cfg w a att []) w.pool c = .ok (q, effs)) :
    StakingPool.Reachable cfg (StakingPool.commit w a att c q effs) ∧
    worth a w + att ≤ worth a (StakingPool.commit w a att c q effs) + StakingPool.paidTo a effs := by
  have h1 := step_call ha hx
  have h2 := reach_step h (.call a att c)
  have h3 := worth_run h a [.call a att c]
  simp only [StakingPool.run] at h3
  rw [h1] at h2 h3
  refine ⟨h2, ?_⟩
  simp only [StakingPool.commit] at h3 ⊢
  simp only [if_true] at h3
  omega

/-- A successful withdrawal is covered by the position and pays exactly the amount. -/
theorem withdraw_paid {cfg : StakingPool.Cfg} {w : StakingPool.World}
    (h : StakingPool.Reachable cfg w) {a : AccountId} {x : Nat}
    {q : StakingPool.Pool} {effs : List StakingPool.Eff}
    (hx : StakingPool.exec (StakingPool.mkEnv cfg w a 0 []) w.pool (.withdraw x) = .ok (q, effs)) :
    x ≤ worth a w ∧ StakingPool.paidTo a effs = x := by
  rw [worth_eq h]
  obtain ⟨s0, hi⟩ := StakingPool.reachable_inv h
  simp only [StakingPool.exec, StakingPool.withdraw, bind_ok, StakingPool.notPayable_ok, pure_ok,
    Prod.exists, Prod.mk.injEq] at hx
  obtain ⟨_, _, s1, b, h1, s2, e1, h2, e2, h3, _, rfl⟩ := hx
  have hp := StakingPool.ping_facts hi.pool h1
  obtain ⟨_, h4, _, _, _, _, _, h5, _⟩ := StakingPool.withdraw_facts hp.inv h2
  have h6 := StakingPool.paidTo_noTransfer (StakingPool.restakeIf_noTransfer h3) a
  rw [hp.unstaked] at h5
  have h7 : (StakingPool.mkEnv cfg w a 0 []).predecessor = a := rfl
  rw [h7] at h4 h5
  refine ⟨by omega, ?_⟩
  rw [h4]
  unfold StakingPool.paidTo at h6 ⊢
  simp only [List.cons_append, List.nil_append, List.map_cons, List.sum_cons, if_true]
  omega

/-- Other calls do not pay. -/
theorem other_paid {cfg : StakingPool.Cfg} {w : StakingPool.World}
    (h : StakingPool.Reachable cfg w) {a : AccountId} {att : Nat} {c : StakingPool.Call}
    {q : StakingPool.Pool} {effs : List StakingPool.Eff} (hc : c.isWithdraw = false)
    (hx : StakingPool.exec (StakingPool.mkEnv cfg w a att []) w.pool c = .ok (q, effs)) :
    StakingPool.paidTo a effs = 0 := by
  obtain ⟨s0, hi⟩ := StakingPool.reachable_inv h
  have h1 := (StakingPool.call_facts hi.pool hx).paid
  rw [StakingPool.exec_paid hx hc] at h1
  exact h1.symm

/-! ## The lockup does not see what pools hold -/

theorem lk_step_held (cfg : Lockup.Cfg) (w : Lockup.World) (h : Nat) {ev : Lockup.Ev}
    (hev : (∃ who att c, ev = .call who att c) ∨ (∃ i, ev = .callback i) ∨ (∃ x, ev = .arrive x) ∨
      (∃ x, ev = .income x) ∨ (∃ x, ev = .tick x)) :
    Lockup.step cfg { w with held := h } ev = { Lockup.step cfg w ev with held := h } := by
  have hcall : ∀ (w : Lockup.World) who att r c, Lockup.doCall cfg { w with held := h } who att r c
      = { Lockup.doCall cfg w who att r c with held := h } := by
    intro w who att r c
    have he : Lockup.mkEnv cfg { w with held := h } who att r = Lockup.mkEnv cfg w who att r := rfl
    unfold Lockup.doCall
    rw [he]
    cases Lockup.exec (Lockup.mkEnv cfg w who att r) w.c c with
    | error _ => rfl
    | ok x =>
      obtain ⟨c', eff⟩ := x
      simp only
      split <;> rfl
  rcases hev with ⟨who, att, c, rfl⟩ | ⟨i, rfl⟩ | ⟨x, rfl⟩ | ⟨x, rfl⟩ | ⟨x, rfl⟩
  · simp only [Lockup.step]
    split
    · rfl
    · exact hcall w who att none c
  · simp only [Lockup.step, Lockup.callback]
    split
    · rename_i ext cb r hi
      exact hcall { w with pend := w.pend.eraseIdx i } cfg.self 0 (some r) (.callback cb)
    · rfl
  · simp only [Lockup.step]
    split <;> rfl
  · rfl
  · rfl

/-- Receipts that do not touch what pools hold. -/
theorem runExt_held (cfg : Lockup.Cfg) (w : Lockup.World) (h : Nat) (p : Lockup.Pending)
    (r : Lockup.PResult) (hp : r = .failed ∨ p.ext.pool? = none) :
    Lockup.runExt cfg { w with held := h } p r =
      ((Lockup.runExt cfg w p r).1, { (Lockup.runExt cfg w p r).2 with held := h }) := by
  obtain ⟨ext, cb, ph⟩ := p
  rcases hp with rfl | hp
  · cases ext <;> simp [Lockup.runExt]
  · cases ext <;> simp only [Lockup.Ext.pool?, reduceCtorEq] at hp
    · simp only [Lockup.runExt]; split <;> rfl
    · simp only [Lockup.runExt]; split <;> rfl
    · simp only [Lockup.runExt]; split <;> rfl
    · simp only [Lockup.runExt]; split <;> rfl

/-! ## Invariant -/

/-- What holds in every reachable state. -/
structure Inv (cfg : Cfg) (a : Lockup.NewArgs) (s : Sys) : Prop where
  ref : ∃ w0 evs, Lockup.Started cfg.lk a w0 ∧ (∀ e ∈ evs, e.lossFree) ∧
    abs cfg all s = Lockup.run cfg.lk w0 evs
  pools : ∀ p w, s.pools.get p = some w → p ≠ cfg.lockup ∧ StakingPool.Reachable (cfg.pool p) w
  listed : ∀ p, Listed s p → s.pools.contains p = true
  approved : ∀ p ∈ s.lk.approved, s.pools.contains p = true
  wl : s.lk.c.whitelist = cfg.whitelist
  poll : Voting.Reachable cfg.voting s.poll
  now : s.poll.now = s.lk.now
  answers : ∀ t, (cfg.poll, t) ∈ s.lk.pollAnswers → Voting.getResult s.poll.c = some t

theorem Inv.reachable {cfg : Cfg} {a : Lockup.NewArgs} {s : Sys} (h : Inv cfg a s) :
    Lockup.Reachable cfg.lk a (abs cfg all s) := by
  obtain ⟨w0, evs, h1, _, h2⟩ := h.ref
  exact ⟨w0, evs, h1, h2⟩

theorem contains_get {V : Type} {m : UMap AccountId V} {k : AccountId} :
    m.contains k = true ↔ ∃ v, m.get k = some v := by
  unfold UMap.contains
  exact Option.isSome_iff_exists

theorem contains_insert {V : Type} {m : UMap AccountId V} {k k' : AccountId} {v : V}
    (h : m.contains k' = true) : (m.insert k v).contains k' = true := by
  rw [contains_get] at h ⊢
  rw [UMap.get_insert]
  split
  · exact ⟨_, rfl⟩
  · exact h

/-- Receipts to pools are addressed to deployed pools. -/
theorem Inv.target {cfg : Cfg} {a : Lockup.NewArgs} {s : Sys} (h : Inv cfg a s)
    {q : Lockup.Pending} (hq : q ∈ s.lk.pend) {p : AccountId} (hp : q.ext.pool? = some p) :
    ∃ w, s.pools.get p = some w := by
  obtain ⟨si, h1, rfl⟩ := Lockup.reachable_target h.reachable q hq p hp
  exact contains_get.mp (h.approved _ ((Lockup.reachable_selInv h.reachable).sel si h1))

/-- The sum over the pools after one pool changed. -/
theorem atPools_insert (cfg : Cfg) {S : AccountId → Bool} (s : Sys) {p : AccountId} {w w' : StakingPool.World}
    (hS : S p = true) (hp : s.pools.get p = some w) :
    (s.pools.insert p w').sum (fun p w => if S p = true then worth cfg.lockup w else 0) +
      worth cfg.lockup w = atPools cfg S s + worth cfg.lockup w' := by
  have := UMap.sum_insert s.pools p w' (fun p w => if S p = true then worth cfg.lockup w else 0)
  simp only [UMap.part, hp, hS, if_true] at this
  exact this

theorem worth_le (cfg : Cfg) {S : AccountId → Bool} (s : Sys) {p : AccountId}
    {w : StakingPool.World} (hS : S p = true) (hp : s.pools.get p = some w) : worth cfg.lockup w ≤ atPools cfg S s := by
  have := UMap.part_le_sum s.pools (fun p w => if S p = true then worth cfg.lockup w else 0) p
  simp only [UMap.part, hp, hS, if_true] at this
  exact this

theorem callOf_pool {ext : Lockup.Ext} {p : AccountId} {att : Nat} {c : StakingPool.Call}
    (h : callOf ext = some (p, att, c)) : ext.pool? = some p := by
  cases ext <;> simp_all [callOf, Lockup.Ext.pool?]

theorem viewOf_pool {ext : Lockup.Ext} {p : AccountId}
    {v : Nat → StakingPool.Pool → AccountId → R Nat}
    (h : viewOf ext = some (p, v)) : ext.pool? = some p := by
  cases ext <;> simp_all [viewOf, Lockup.Ext.pool?]

theorem pool?_of_none {ext : Lockup.Ext} (h1 : callOf ext = none) (h2 : viewOf ext = none) :
    ext.pool? = none := by
  cases ext <;> simp_all [callOf, viewOf, Lockup.Ext.pool?]

/-- The total reported by a pool is the value of the position. -/
theorem view_total {cfg : StakingPool.Cfg} {w : StakingPool.World}
    (h : StakingPool.Reachable cfg w) {a : AccountId} {v : Nat}
    (hv : StakingPool.getAccountTotalBalance w.epoch w.pool a = .ok v) : v = worth a w := by
  obtain ⟨s0, hi⟩ := StakingPool.reachable_inv h
  rw [worth_eq h]
  simp only [StakingPool.getAccountTotalBalance, bind_ok, addU128_ok] at hv
  obtain ⟨acc, h1, _, h2⟩ := hv
  rw [StakingPool.getAccount_total hi.pool] at h1
  cases h1
  exact h2

/-- What `answered` does to the abstract world. -/
theorem answered_sim (cfg : Cfg) (S : AccountId → Bool) (s : Sys) (p : Lockup.Pending) (r : Lockup.PResult)
    (hp : r = .failed ∨ p.ext.pool? = none) :
    (Lockup.runExt cfg.lk (abs cfg S s) p r).1 = (answered cfg s p r).1 ∧
    abs cfg S (answered cfg s p r).2 = (Lockup.runExt cfg.lk (abs cfg S s) p r).2 := by
  have h := runExt_held cfg.lk s.lk (atPools cfg S s) p r hp
  have h1 : (Lockup.runExt cfg.lk (abs cfg S s) p r).1 = (Lockup.runExt cfg.lk s.lk p r).1 :=
    congrArg (fun x => x.1) h
  have h2 : (Lockup.runExt cfg.lk (abs cfg S s) p r).2 =
      { (Lockup.runExt cfg.lk s.lk p r).2 with held := atPools cfg S s } :=
    congrArg (fun x => x.2) h
  exact ⟨h1, h2.symm⟩

/-- A receipt of the lockup executed by the system is a receipt executed in the abstract world,
followed by a gain of the pools. -/
theorem runExt_sim {cfg : Cfg} {a : Lockup.NewArgs} {s : Sys} (h : Inv cfg a s)
    {ext : Lockup.Ext} {cb : Option Lockup.Callback}
    (hq : (⟨ext, cb, .sent⟩ : Lockup.Pending) ∈ s.lk.pend) (ok : Bool) (r : Lockup.PResult)
    (S : AccountId → Bool) (hS : ∀ p, ext.pool? = some p → S p = true) :
    ∃ r' d, (Lockup.runExt cfg.lk (abs cfg S s) ⟨ext, cb, .sent⟩ r').1 =
        (runExt cfg s ⟨ext, cb, .sent⟩ ok r).1 ∧
      abs cfg S (runExt cfg s ⟨ext, cb, .sent⟩ ok r).2 =
        { (Lockup.runExt cfg.lk (abs cfg S s) ⟨ext, cb, .sent⟩ r').2 with
          held := (Lockup.runExt cfg.lk (abs cfg S s) ⟨ext, cb, .sent⟩ r').2.held + d } := by
  have key : ∀ r', r' = .failed ∨ ext.pool? = none → ∃ r'' d,
      (Lockup.runExt cfg.lk (abs cfg S s) ⟨ext, cb, .sent⟩ r'').1 =
        (answered cfg s ⟨ext, cb, .sent⟩ r').1 ∧
      abs cfg S (answered cfg s ⟨ext, cb, .sent⟩ r').2 =
        { (Lockup.runExt cfg.lk (abs cfg S s) ⟨ext, cb, .sent⟩ r'').2 with
          held := (Lockup.runExt cfg.lk (abs cfg S s) ⟨ext, cb, .sent⟩ r'').2.held + d } := by
    intro r' hr'
    obtain ⟨h1, h2⟩ := answered_sim cfg S s ⟨ext, cb, .sent⟩ r' hr'
    exact ⟨r', 0, h1, h2⟩
  unfold runExt
  by_cases hok : ok = false
  · rw [if_pos hok]; exact key .failed (.inl rfl)
  rw [if_neg hok]
  simp only
  cases hc : callOf ext with
  | some x =>
    obtain ⟨p, att, c⟩ := x
    simp only
    obtain ⟨w, hw⟩ := h.target hq (callOf_pool hc)
    rw [hw]
    obtain ⟨hpl, hre⟩ := h.pools p w hw
    have hself : cfg.lockup ≠ (cfg.pool p).self := fun e => hpl e.symm
    simp only [callPool]
    cases hx : StakingPool.exec (StakingPool.mkEnv (cfg.pool p) w cfg.lockup att []) w.pool c with
    | error e =>
      refine ⟨.failed, 0, ?_, ?_⟩
      · cases ext <;> simp [Lockup.runExt]
      · cases ext <;> simp only [callOf, reduceCtorEq, Option.some.injEq, Prod.mk.injEq] at hc <;>
          obtain ⟨rfl, rfl, rfl⟩ := hc <;> simp [Lockup.runExt, abs, atPools]
    | ok y =>
      obtain ⟨q, effs⟩ := y
      simp only
      obtain ⟨_, hwo⟩ := worth_call hre hself hx
      have hins := atPools_insert cfg s (w' := StakingPool.commit w cfg.lockup att c q effs)
        (hS p (callOf_pool hc)) hw
      have hle := worth_le cfg s (hS p (callOf_pool hc)) hw
      refine ⟨.unit, worth cfg.lockup (StakingPool.commit w cfg.lockup att c q effs) +
        StakingPool.paidTo cfg.lockup effs - (worth cfg.lockup w + att), ?_, ?_⟩
      · cases ext <;> simp only [callOf, reduceCtorEq, Option.some.injEq, Prod.mk.injEq] at hc <;>
          obtain ⟨rfl, rfl, rfl⟩ := hc <;> simp only [Lockup.runExt, reduceCtorEq, if_false]
        have := (withdraw_paid hre hx).1
        have hxle : _ ≤ (abs cfg S s).held := Nat.le_trans this hle
        rw [if_pos hxle]
      · have hcases : (c.isWithdraw = false ∧ StakingPool.paidTo cfg.lockup effs = 0) ∨
            (∃ x, c = .withdraw x) := by
          cases hcw : c.isWithdraw with
          | false => exact .inl ⟨rfl, other_paid hre hcw hx⟩
          | true =>
            right
            cases ext <;> simp only [callOf, reduceCtorEq, Option.some.injEq, Prod.mk.injEq] at hc <;>
              obtain ⟨rfl, rfl, rfl⟩ := hc <;> simp [StakingPool.Call.isWithdraw] at hcw
            exact ⟨_, rfl⟩
        rcases hcases with ⟨hcw, hpaid⟩ | ⟨x, rfl⟩
        · rw [hpaid] at hwo ⊢
          cases ext <;> simp only [callOf, reduceCtorEq, Option.some.injEq, Prod.mk.injEq] at hc <;>
            obtain ⟨rfl, rfl, rfl⟩ := hc <;>
            simp only [StakingPool.Call.isWithdraw, reduceCtorEq] at hcw <;>
            simp only [Lockup.runExt, reduceCtorEq, if_false, abs, atPools, Nat.add_zero,
              Lockup.World.mk.injEq, true_and, and_true] <;>
            unfold atPools at hins <;> omega
        · have hext : ext = .poolWithdraw p x := by
            cases ext <;> simp_all [callOf]
          subst hext
          simp only [callOf, Option.some.injEq, Prod.mk.injEq] at hc
          obtain ⟨_, rfl, _⟩ := hc
          obtain ⟨hp1, hp2⟩ := withdraw_paid hre hx
          have hxle : x ≤ (abs cfg S s).held := Nat.le_trans hp1 hle
          rw [hp2] at hwo ⊢
          simp only [Lockup.runExt, reduceCtorEq, if_false, if_pos hxle]
          simp only [abs, atPools, Nat.add_zero, Lockup.World.mk.injEq, true_and, and_true]
          unfold atPools at hins hle
          omega
  | none =>
    simp only
    cases hv : viewOf ext with
    | some x =>
      obtain ⟨p, view⟩ := x
      simp only
      obtain ⟨w, hw⟩ := h.target hq (viewOf_pool hv)
      rw [hw]
      obtain ⟨hpl, hre⟩ := h.pools p w hw
      simp only
      have hle := worth_le cfg s (hS p (viewOf_pool hv)) hw
      refine ⟨viewPool cfg w view, 0, ?_, ?_⟩
      · cases ext <;> simp only [viewOf, reduceCtorEq, Option.some.injEq, Prod.mk.injEq] at hv <;>
          obtain ⟨rfl, rfl⟩ := hv <;> simp only [Lockup.runExt, viewPool]
        split
        · rename_i heq
          split at heq
          · rename_i v' hv'
            cases heq
            have := view_total hre hv'
            rw [if_neg (by rintro ⟨_, h1⟩; have h2 : (abs cfg S s).held = atPools cfg S s := rfl; omega)]
          · cases heq
        · rfl
      · cases ext <;> simp only [viewOf, reduceCtorEq, Option.some.injEq, Prod.mk.injEq] at hv <;>
          obtain ⟨rfl, rfl⟩ := hv <;> simp only [Lockup.runExt, viewPool] <;>
          first | rfl | skip
        split
        · split <;> rfl
        · rfl
    | none =>
      simp only
      have hn := pool?_of_none hc hv
      split
      · exact key _ (.inr hn)
      · exact key _ (.inr hn)
      · exact key _ (.inr hn)

theorem step_now_approved (cfg : Lockup.Cfg) (w : Lockup.World) {ev : Lockup.Ev}
    (hev : (∃ who att c, ev = .call who att c) ∨ (∃ i, ev = .callback i) ∨ (∃ x, ev = .arrive x) ∨
      (∃ x, ev = .income x)) :
    (Lockup.step cfg w ev).now = w.now ∧ (Lockup.step cfg w ev).approved = w.approved ∧
      (Lockup.step cfg w ev).pollAnswers = w.pollAnswers := by
  have hcall : ∀ (w : Lockup.World) who att r c, (Lockup.doCall cfg w who att r c).now = w.now ∧
      (Lockup.doCall cfg w who att r c).approved = w.approved ∧
      (Lockup.doCall cfg w who att r c).pollAnswers = w.pollAnswers := by
    intro w who att r c
    unfold Lockup.doCall
    split
    · split <;> exact ⟨rfl, rfl, rfl⟩
    · exact ⟨rfl, rfl, rfl⟩
  rcases hev with ⟨who, att, c, rfl⟩ | ⟨i, rfl⟩ | ⟨x, rfl⟩ | ⟨x, rfl⟩
  · simp only [Lockup.step]
    split
    · exact ⟨rfl, rfl, rfl⟩
    · exact hcall w who att none c
  · simp only [Lockup.step, Lockup.callback]
    split
    · rename_i ext cb r hi
      exact hcall { w with pend := w.pend.eraseIdx i } cfg.self 0 (some r) (.callback cb)
    · exact ⟨rfl, rfl, rfl⟩
  · simp only [Lockup.step]
    split <;> exact ⟨rfl, rfl, rfl⟩
  · exact ⟨rfl, rfl, rfl⟩

/-- What an executed receipt does to the rest of the state. -/
structure ExtFacts (cfg : Cfg) (s s' : Sys) : Prop where
  pools : ∀ p w, s'.pools.get p = some w → p ≠ cfg.lockup ∧ StakingPool.Reachable (cfg.pool p) w
  keys : ∀ p, s.pools.contains p = true → s'.pools.contains p = true
  wl : s'.wl = s.wl
  poll : s'.poll = s.poll
  now : s'.lk.now = s.lk.now
  pend : s'.lk.pend = s.lk.pend
  queried : s'.lk.queried = s.lk.queried
  c : s'.lk.c = s.lk.c
  approved : ∀ p ∈ s'.lk.approved, p ∈ s.lk.approved ∨ Listed s p
  answers : ∀ t, (cfg.poll, t) ∈ s'.lk.pollAnswers →
    (cfg.poll, t) ∈ s.lk.pollAnswers ∨ Voting.getResult s.poll.c = some t

theorem answered_facts {cfg : Cfg} {a : Lockup.NewArgs} {s : Sys} (h : Inv cfg a s)
    (ext : Lockup.Ext) (cb : Option Lockup.Callback) (r : Lockup.PResult)
    (hw : ∀ p, ext = .isWhitelisted cfg.whitelist p → r = .bool true → Listed s p)
    (hp : ∀ t, ext = .getResult cfg.poll → r = .poll (some t) →
      Voting.getResult s.poll.c = some t) :
    ExtFacts cfg s (answered cfg s ⟨ext, cb, .sent⟩ r).2 := by
  have hf := Lockup.runExt_facts cfg.lk s.lk ⟨ext, cb, .sent⟩ r
  refine ⟨h.pools, fun _ h => h, rfl, rfl, hf.2.2.2.1, hf.2.1, hf.2.2.2.2.2.1, hf.1, ?_, ?_⟩
  · intro p hm
    rcases (Lockup.runExt_approved (cfg := cfg.lk) (w := s.lk) p).mp hm with h1 | ⟨h1, h2, _⟩
    · exact .inl h1
    · rw [h.wl] at h1
      exact .inr (hw p h1 h2)
  · intro t hm
    rcases (Lockup.runExt_polls (cfg := cfg.lk) (w := s.lk) _).mp hm with h1 | ⟨h1, h2⟩
    · exact .inl h1
    · exact .inr (hp t h1 h2)

theorem runExt_facts {cfg : Cfg} {a : Lockup.NewArgs} {s : Sys} (h : Inv cfg a s)
    {ext : Lockup.Ext} {cb : Option Lockup.Callback}
    (hq : (⟨ext, cb, .sent⟩ : Lockup.Pending) ∈ s.lk.pend) (ok : Bool) (r : Lockup.PResult) :
    ExtFacts cfg s (runExt cfg s ⟨ext, cb, .sent⟩ ok r).2 := by
  unfold runExt
  by_cases hok : ok = false
  · rw [if_pos hok]
    exact answered_facts h ext cb .failed (by simp) (by simp)
  rw [if_neg hok]
  simp only
  cases hc : callOf ext with
  | some x =>
    obtain ⟨p, att, c⟩ := x
    simp only
    obtain ⟨w, hw⟩ := h.target hq (callOf_pool hc)
    rw [hw]
    obtain ⟨hpl, hre⟩ := h.pools p w hw
    have hself : cfg.lockup ≠ (cfg.pool p).self := fun e => hpl e.symm
    simp only [callPool]
    cases hx : StakingPool.exec (StakingPool.mkEnv (cfg.pool p) w cfg.lockup att []) w.pool c with
    | error e =>
      exact ⟨h.pools, fun _ h => h, rfl, rfl, rfl, rfl, rfl, rfl, fun _ h => .inl h,
        fun _ h => .inl h⟩
    | ok y =>
      obtain ⟨q, effs⟩ := y
      refine ⟨?_, fun _ h => contains_insert h, rfl, rfl, rfl, rfl, rfl, rfl, fun _ h => .inl h,
        fun _ h => .inl h⟩
      intro p' w' hg
      rw [UMap.get_insert] at hg
      split at hg
      · rename_i e
        subst e
        cases hg
        exact ⟨hpl, (worth_call hre hself hx).1⟩
      · exact h.pools p' w' hg
  | none =>
    simp only
    cases hv : viewOf ext with
    | some x =>
      obtain ⟨p, view⟩ := x
      simp only
      obtain ⟨w, hw⟩ := h.target hq (viewOf_pool hv)
      rw [hw]
      exact ⟨h.pools, fun _ h => h, rfl, rfl, rfl, rfl, rfl, rfl, fun _ h => .inl h,
        fun _ h => .inl h⟩
    | none =>
      simp only
      split
      · refine answered_facts h _ cb _ ?_ (by simp)
        intro p he hr
        simp only [Lockup.Ext.isWhitelisted.injEq] at he
        obtain ⟨rfl, rfl⟩ := he
        rw [if_pos rfl] at hr
        unfold askWhitelist Whitelist.isWhitelisted at hr
        split at hr
        · rename_i b hb
          simp only [bind_ok, pure_ok] at hb
          obtain ⟨_, _, hb⟩ := hb
          cases hr
          exact hb
        · cases hr
      · refine answered_facts h _ cb _ (by simp) ?_
        intro t he hr
        simp only [Lockup.Ext.getResult.injEq] at he
        subst he
        rw [if_pos rfl] at hr
        simpa using hr
      · rename_i hn1 hn2
        refine answered_facts h _ cb _ ?_ ?_
        · intro p he; exact absurd he (hn1 _ _)
        · intro t he; exact absurd he (hn2 _)

theorem step_pool_ext {cfg : Cfg} {a : Lockup.NewArgs} {s : Sys} (h : Inv cfg a s)
    {p : AccountId} {w w' : StakingPool.World} (hw : s.pools.get p = some w)
    (hr : StakingPool.Reachable (cfg.pool p) w') (hle : worth cfg.lockup w ≤ worth cfg.lockup w') :
    Inv cfg a { s with pools := s.pools.insert p w' } ∧
    ∃ d, abs cfg all { s with pools := s.pools.insert p w' } =
      Lockup.run cfg.lk (abs cfg all s) [.poolReward d] := by
  have hins := atPools_insert cfg (S := all) s (w' := w') rfl hw
  have habs : abs cfg all { s with pools := s.pools.insert p w' } =
      Lockup.run cfg.lk (abs cfg all s) [.poolReward (worth cfg.lockup w' - worth cfg.lockup w)] := by
    simp only [Lockup.run, Lockup.step, abs, Lockup.World.mk.injEq, true_and, and_true]
    have : atPools cfg all { s with pools := s.pools.insert p w' } =
      (s.pools.insert p w').sum (fun p w => if all p = true then worth cfg.lockup w else 0) := rfl
    rw [this]
    omega
  refine ⟨⟨?_, ?_, fun q hq => contains_insert (h.listed q hq),
    fun q hq => contains_insert (h.approved q hq), h.wl, h.poll, h.now, h.answers⟩, _, habs⟩
  · obtain ⟨w0, evs, h1, h2, h3⟩ := h.ref
    refine ⟨w0, evs ++ [.poolReward (worth cfg.lockup w' - worth cfg.lockup w)], h1, ?_, ?_⟩
    · intro e he
      rcases List.mem_append.mp he with he | he
      · exact h2 e he
      · simp only [List.mem_singleton] at he
        subst he; trivial
    · rw [Lockup.run_append, ← h3]; exact habs
  · intro p' w'' hg
    simp only at hg
    rw [UMap.get_insert] at hg
    split at hg
    · rename_i e
      subst e
      cases hg
      exact ⟨(h.pools _ w hw).1, hr⟩
    · exact h.pools p' w'' hg

/-- A refinement step, given the facts about the rest of the state. -/
theorem inv_of {cfg : Cfg} {a : Lockup.NewArgs} {s s' : Sys} (h : Inv cfg a s)
    {evs : List Lockup.Ev} (hl : ∀ e ∈ evs, e.lossFree)
    (habs : abs cfg all s' = Lockup.run cfg.lk (abs cfg all s) evs)
    (hpools : ∀ p w, s'.pools.get p = some w →
      p ≠ cfg.lockup ∧ StakingPool.Reachable (cfg.pool p) w)
    (hlisted : ∀ p, Listed s' p → s'.pools.contains p = true)
    (happ : ∀ p ∈ s'.lk.approved, s'.pools.contains p = true)
    (hpoll : Voting.Reachable cfg.voting s'.poll) (hnow : s'.poll.now = s'.lk.now)
    (hans : ∀ t, (cfg.poll, t) ∈ s'.lk.pollAnswers → Voting.getResult s'.poll.c = some t) :
    Inv cfg a s' := by
  refine ⟨?_, hpools, hlisted, happ, ?_, hpoll, hnow, hans⟩
  · obtain ⟨w0, evs0, h1, h2, h3⟩ := h.ref
    refine ⟨w0, evs0 ++ evs, h1, ?_, ?_⟩
    · intro e he
      rcases List.mem_append.mp he with he | he
      · exact h2 e he
      · exact hl e he
    · rw [Lockup.run_append, ← h3]; exact habs
  · have h1 := (Lockup.const_run (cfg := cfg.lk) (w := abs cfg all s) evs).2.1
    rw [← habs] at h1
    have h2 : (abs cfg all s').c = s'.lk.c := rfl
    have h3 : (abs cfg all s).c = s.lk.c := rfl
    rw [h2, h3, h.wl] at h1
    exact h1

/-- Every event keeps the invariant and is a sequence of loss-free events of the lockup world. -/
theorem inv_step {cfg : Cfg} {a : Lockup.NewArgs} {s : Sys} (h : Inv cfg a s) (ev : Ev)
    (hc : ∀ who att p r, ev = .whitelist ⟨who, att, .addPool p⟩ →
      Whitelist.exec (Whitelist.mkEnv cfg.validAccountId who att) s.wl (.addPool p) = .ok r →
      s.pools.contains p = true) :
    Inv cfg a (step cfg s ev) ∧ ∃ evs : List Lockup.Ev, (∀ e ∈ evs, e.lossFree) ∧
      abs cfg all (step cfg s ev) = Lockup.run cfg.lk (abs cfg all s) evs := by
  have lkcase : ∀ e : Lockup.Ev, ((∃ who att c, e = .call who att c) ∨ (∃ i, e = .callback i) ∨
      (∃ x, e = .arrive x) ∨ (∃ x, e = .income x)) →
      Inv cfg a { s with lk := Lockup.step cfg.lk s.lk e } ∧
      ∃ evs : List Lockup.Ev, (∀ e ∈ evs, e.lossFree) ∧
      abs cfg all { s with lk := Lockup.step cfg.lk s.lk e } = Lockup.run cfg.lk (abs cfg all s) evs := by
    intro e he
    have hheld := lk_step_held cfg.lk s.lk (atPools cfg all s) (ev := e) (by
      rcases he with h | h | h | h
      · exact .inl h
      · exact .inr (.inl h)
      · exact .inr (.inr (.inl h))
      · exact .inr (.inr (.inr (.inl h))))
    have hl : ∀ x ∈ [e], Lockup.Ev.lossFree x := by
      intro x hx
      simp only [List.mem_singleton] at hx
      subst hx
      rcases he with ⟨_, _, _, rfl⟩ | ⟨_, rfl⟩ | ⟨_, rfl⟩ | ⟨_, rfl⟩ <;> trivial
    have habs : abs cfg all { s with lk := Lockup.step cfg.lk s.lk e } =
        Lockup.run cfg.lk (abs cfg all s) [e] := hheld.symm
    obtain ⟨h1, h2, h3⟩ := step_now_approved cfg.lk s.lk he
    refine ⟨inv_of h hl habs h.pools h.listed ?_ h.poll ?_ ?_, [e], hl, habs⟩
    · intro p hp
      simp only at hp
      rw [h2] at hp
      exact h.approved p hp
    · show s.poll.now = (Lockup.step cfg.lk s.lk e).now
      rw [h1]; exact h.now
    · intro t ht
      simp only at ht
      rw [h3] at ht
      exact h.answers t ht
  have same : Inv cfg a s ∧ ∃ evs : List Lockup.Ev, (∀ e ∈ evs, e.lossFree) ∧
      abs cfg all s = Lockup.run cfg.lk (abs cfg all s) evs := ⟨h, [], by simp, rfl⟩
  cases ev with
  | call who att c => exact lkcase _ (.inl ⟨_, _, _, rfl⟩)
  | callback i => exact lkcase _ (.inr (.inl ⟨_, rfl⟩))
  | arrive x => exact lkcase _ (.inr (.inr (.inl ⟨_, rfl⟩)))
  | income x => exact lkcase _ (.inr (.inr (.inr ⟨_, rfl⟩)))
  | execute i ok r =>
    simp only [step, execute]
    split
    · rename_i ext cb hi
      have hq := Lockup.mem_of_getElem?' hi
      obtain ⟨r', d, h1, h2⟩ := runExt_sim h hq ok r all (fun _ _ => rfl)
      have hf := runExt_facts h hq ok r
      have hi' : (abs cfg all s).pend[i]? = some ⟨ext, cb, .sent⟩ := hi
      have hl : ∀ x ∈ [Lockup.Ev.execute i r', .poolReward d], Lockup.Ev.lossFree x := by
        intro x hx
        simp only [List.mem_cons, List.not_mem_nil, or_false] at hx
        rcases hx with rfl | rfl <;> trivial
      generalize hs' : (runExt cfg s ⟨ext, cb, .sent⟩ ok r) = x at h1 h2 hf
      obtain ⟨r1, s1⟩ := x
      simp only at h1 h2 hf ⊢
      have hfin : ∀ l : List Lockup.Pending,
          (abs cfg all { s1 with lk := { s1.lk with pend := l } }) =
            Lockup.run cfg.lk (abs cfg all s) [.execute i r', .poolReward d] →
          Inv cfg a { s1 with lk := { s1.lk with pend := l } } ∧
          ∃ evs : List Lockup.Ev, (∀ e ∈ evs, e.lossFree) ∧
            abs cfg all { s1 with lk := { s1.lk with pend := l } } =
              Lockup.run cfg.lk (abs cfg all s) evs := by
        intro l habs
        refine ⟨inv_of h hl habs hf.pools ?_ ?_ ?_ ?_ ?_, _, hl, habs⟩
        · intro p hp
          have hp' : s1.wl.whitelist.contains p = true := hp
          rw [hf.wl] at hp'
          exact hf.keys p (h.listed p hp')
        · intro p hp
          rcases hf.approved p hp with h3 | h3
          · exact hf.keys p (h.approved p h3)
          · exact hf.keys p (h.listed p h3)
        · show Voting.Reachable cfg.voting s1.poll
          rw [hf.poll]; exact h.poll
        · show s1.poll.now = s1.lk.now
          rw [hf.poll, hf.now]; exact h.now
        · intro t ht
          show Voting.getResult s1.poll.c = some t
          rw [hf.poll]
          rcases hf.answers t ht with h3 | h3
          · exact h.answers t h3
          · exact h3
      have habs1 : ∀ l : List Lockup.Pending,
          abs cfg all { s1 with lk := { s1.lk with pend := l } } =
            { abs cfg all s1 with pend := l } := fun _ => rfl
      cases cb with
      | none =>
        apply hfin
        rw [habs1, h2]
        simp only [Lockup.run, Lockup.step, Lockup.execute, hi']
        rfl
      | some cb =>
        apply hfin
        rw [habs1, h2, ← h1]
        simp only [Lockup.run, Lockup.step, Lockup.execute, hi']
        rfl
    · exact same
  | pool p ev =>
    have hpe : ∀ w, s.pools.get p = some w → ¬ ev.isCallBy cfg.lockup →
        Inv cfg a { s with pools := s.pools.insert p (StakingPool.step (cfg.pool p) w ev) } ∧
        ∃ evs : List Lockup.Ev, (∀ e ∈ evs, e.lossFree) ∧
          abs cfg all { s with pools := s.pools.insert p (StakingPool.step (cfg.pool p) w ev) } =
            Lockup.run cfg.lk (abs cfg all s) evs := by
      intro w hw hn
      have hr := (h.pools p w hw).2
      obtain ⟨h1, d, h2⟩ := step_pool_ext h hw (reach_step hr ev) (worth_other hr hn)
      refine ⟨h1, [.poolReward d], ?_, h2⟩
      intro x hx
      simp only [List.mem_singleton] at hx
      subst hx; trivial
    cases hw : s.pools.get p with
    | none => simp only [step, hw]; exact same
    | some w =>
      cases ev with
      | call who att c =>
        simp only [step, hw]
        split
        · exact same
        · rename_i hne
          exact hpe w hw hne
      | _ => simp only [step, hw]; exact hpe w hw (by simp [StakingPool.Ev.isCallBy])
  | create p deployer owner key fee balance epoch =>
    simp only [step, create]
    split
    · exact same
    · rename_i hn
      split
      · rename_i hb
        split
        · rename_i q effs hx
          have hst : StakingPool.Reachable (cfg.pool p)
              (StakingPool.initWorld q effs balance epoch) :=
            ⟨_, [], ⟨deployer, owner, key, fee, balance, epoch, q, effs, hb.1, hb.2, hx, rfl⟩, rfl⟩
          have hnone : s.pools.get p = none := by
            cases hg : s.pools.get p with
            | none => rfl
            | some w => exact absurd (.inr (contains_get.mpr ⟨w, hg⟩)) hn
          have habs : abs cfg all { s with
              pools := s.pools.insert p (StakingPool.initWorld q effs balance epoch) } =
              Lockup.run cfg.lk (abs cfg all s)
                [.poolReward (worth cfg.lockup (StakingPool.initWorld q effs balance epoch))] := by
            have := UMap.sum_insert s.pools p (StakingPool.initWorld q effs balance epoch)
              (fun p w => if all p = true then worth cfg.lockup w else 0)
            simp only [UMap.part, hnone, Nat.add_zero] at this
            simp only [Lockup.run, Lockup.step, abs, Lockup.World.mk.injEq, true_and, and_true]
            exact this
          have hl : ∀ x ∈ [Lockup.Ev.poolReward
              (worth cfg.lockup (StakingPool.initWorld q effs balance epoch))],
              Lockup.Ev.lossFree x := by
            intro x hx
            simp only [List.mem_singleton] at hx
            subst hx; trivial
          refine ⟨inv_of h hl habs ?_ (fun q hq => contains_insert (h.listed q hq))
            (fun q hq => contains_insert (h.approved q hq)) h.poll h.now h.answers, _, hl, habs⟩
          intro p' w' hg
          simp only at hg
          rw [UMap.get_insert] at hg
          split at hg
          · rename_i e
            subst e
            cases hg
            exact ⟨fun e => hn (.inl e), hst⟩
          · exact h.pools p' w' hg
        · exact same
      · exact same
  | whitelist ev =>
    have habs : abs cfg all { s with wl := Whitelist.step cfg.validAccountId s.wl ev } =
        Lockup.run cfg.lk (abs cfg all s) [] := rfl
    refine ⟨inv_of h (by simp) habs h.pools ?_ h.approved h.poll h.now h.answers, [], by simp, habs⟩
    intro p hp
    have hp' : (Whitelist.step cfg.validAccountId s.wl ev).whitelist.contains p = true := hp
    by_cases hold : s.wl.whitelist.contains p = true
    · exact h.listed p hold
    · obtain ⟨who, att, call⟩ := ev
      rcases Whitelist.step_cases cfg.validAccountId s.wl ⟨who, att, call⟩ with ⟨b, h1⟩ | ⟨_, h1⟩
      · have h2 := Whitelist.exec_ok.mp h1
        cases call with
        | addPool q =>
          obtain ⟨_, _, _, h3, _⟩ := h2
          rw [h3] at hp'
          by_cases he : q = p
          · subst he; exact hc who att q _ rfl h1
          · exfalso; apply hold
            rw [contains_get] at hp' ⊢
            rw [UMap.get_insert_ne he] at hp'
            exact hp'
        | removePool q =>
          obtain ⟨_, _, _, h3, _⟩ := h2
          rw [h3] at hp'
          exfalso; apply hold
          rw [contains_get] at hp' ⊢
          simp only [UMap.get_remove] at hp'
          split at hp'
          · obtain ⟨_, hp'⟩ := hp'; cases hp'
          · exact hp'
        | addFactory q =>
          obtain ⟨_, _, _, h3, _⟩ := h2
          rw [h3] at hp'
          exact absurd hp' hold
        | removeFactory q =>
          obtain ⟨_, _, _, h3, _⟩ := h2
          rw [h3] at hp'
          exact absurd hp' hold
      · rw [h1] at hp'; exact absurd hp' hold
  | vote who att c =>
    have habs : abs cfg all { s with poll := Voting.step cfg.voting s.poll (.call who att c) } =
        Lockup.run cfg.lk (abs cfg all s) [] := rfl
    obtain ⟨w0, l, h1, h2⟩ := h.poll
    refine ⟨inv_of h (by simp) habs h.pools h.listed h.approved ?_ ?_ ?_, [], by simp, habs⟩
    · refine ⟨w0, l ++ [.call who att c], h1, ?_⟩
      simp only [Voting.run, List.foldl_append, List.foldl_cons, List.foldl_nil] at h2 ⊢
      rw [← h2]; rfl
    · have : (Voting.step cfg.voting s.poll (.call who att c)).now = s.poll.now := by
        simp only [Voting.step]; split <;> rfl
      show (Voting.step cfg.voting s.poll (.call who att c)).now = s.lk.now
      rw [this]; exact h.now
    · intro t ht
      have hr := h.answers t ht
      have := (Voting.C36_result_is_final (cfg := cfg.voting) hr).2 [.call who att c]
      show Voting.getResult (Voting.step cfg.voting s.poll (.call who att c)).c = some t
      have h4 : (Voting.step cfg.voting s.poll (.call who att c)).c = s.poll.c := this
      rw [h4]; exact hr
  | voteEpochs k =>
    have habs : abs cfg all { s with poll := Voting.step cfg.voting s.poll (.epochs k) } =
        Lockup.run cfg.lk (abs cfg all s) [] := rfl
    obtain ⟨w0, l, h1, h2⟩ := h.poll
    refine ⟨inv_of h (by simp) habs h.pools h.listed h.approved ?_ h.now h.answers, [], by simp, habs⟩
    refine ⟨w0, l ++ [.epochs k], h1, ?_⟩
    simp only [Voting.run, List.foldl_append, List.foldl_cons, List.foldl_nil] at h2 ⊢
    rw [← h2]; rfl
  | tick dt =>
    have hl : ∀ x ∈ [Lockup.Ev.tick dt], Lockup.Ev.lossFree x := by
      intro x hx
      simp only [List.mem_singleton] at hx
      subst hx; trivial
    have habs : abs cfg all (step cfg s (.tick dt)) = Lockup.run cfg.lk (abs cfg all s) [.tick dt] := rfl
    obtain ⟨w0, l, h1, h2⟩ := h.poll
    refine ⟨inv_of h hl habs h.pools h.listed h.approved ?_ ?_ h.answers, _, hl, habs⟩
    · refine ⟨w0, l ++ [.tick dt], h1, ?_⟩
      simp only [Voting.run, List.foldl_append, List.foldl_cons, List.foldl_nil] at h2 ⊢
      rw [← h2]; rfl
    · show s.poll.now + dt = s.lk.now + dt
      rw [h.now]

theorem started_inv {cfg : Cfg} {a : Lockup.NewArgs} {s : Sys} (h : Started cfg a s) :
    Inv cfg a s := by
  have h0 := h.lk
  obtain ⟨deployer, balance, now, c, hb, hx, hw⟩ := h.lk
  refine ⟨⟨s.lk, [.poolReward (atPools cfg all s)], h0, ?_, ?_⟩, h.pools, h.listed, ?_, ?_, h.poll, h.now,
    ?_⟩
  · intro e he
    simp only [List.mem_singleton] at he
    subst he; trivial
  · simp only [Lockup.run, Lockup.step, abs, hw, Lockup.initWorld, Nat.zero_add]
  · intro p hp
    rw [hw] at hp
    simp [Lockup.initWorld] at hp
  · rw [hw]
    simp only [Lockup.initWorld]
    rw [← h.whitelist]
    exact (Lockup.new_ok hx).2.2.2.1
  · intro t ht
    rw [hw] at ht
    simp [Lockup.initWorld] at ht

theorem run_append (cfg : Cfg) (s : Sys) (l1 l2 : List Ev) :
    run cfg s (l1 ++ l2) = run cfg (run cfg s l1) l2 := by
  induction l1 generalizing s with
  | nil => rfl
  | cons h t ih => exact ih _

theorem careful_append {cfg : Cfg} {s : Sys} {l1 l2 : List Ev} :
    Careful cfg s (l1 ++ l2) ↔ Careful cfg s l1 ∧ Careful cfg (run cfg s l1) l2 := by
  induction l1 generalizing s with
  | nil => simp [Careful, run]
  | cons h t ih => simp only [List.cons_append, Careful, run, ih, and_assoc]

/-- Careful histories keep the invariant and are loss-free histories of the lockup world. -/
theorem inv_run {cfg : Cfg} {a : Lockup.NewArgs} {s : Sys} (h : Inv cfg a s) {evs : List Ev}
    (hc : Careful cfg s evs) :
    Inv cfg a (run cfg s evs) ∧ ∃ l : List Lockup.Ev, (∀ e ∈ l, e.lossFree) ∧
      abs cfg all (run cfg s evs) = Lockup.run cfg.lk (abs cfg all s) l := by
  induction evs generalizing s with
  | nil => exact ⟨h, [], by simp, rfl⟩
  | cons ev t ih =>
    obtain ⟨h1, h2⟩ := hc
    obtain ⟨h3, l1, h4, h5⟩ := inv_step h ev h1
    obtain ⟨h6, l2, h7, h8⟩ := ih h3 h2
    refine ⟨h6, l1 ++ l2, ?_, ?_⟩
    · intro e he
      rcases List.mem_append.mp he with he | he
      · exact h4 e he
      · exact h7 e he
    · rw [Lockup.run_append, ← h5]; exact h8

theorem reachable_inv {cfg : Cfg} {a : Lockup.NewArgs} {s : Sys} (h : Reachable cfg a s) :
    Inv cfg a s := by
  obtain ⟨s0, evs, h0, hc, rfl⟩ := h
  exact (inv_run (started_inv h0) hc).1

theorem Reachable.run {cfg : Cfg} {a : Lockup.NewArgs} {s : Sys} (h : Reachable cfg a s)
    {evs : List Ev} (hc : Careful cfg s evs) : Reachable cfg a (run cfg s evs) := by
  obtain ⟨s0, l, h0, h1, rfl⟩ := h
  exact ⟨s0, l ++ evs, h0, careful_append.mpr ⟨h1, hc⟩, (run_append cfg s0 l evs).symm⟩

end Verif.System
