import Verif.WNear.Props

/-!
# Wrapped NEAR: everybody can leave at once (C119)
-/

namespace Verif.WNear

open Verif

/-! ## Specification -/

/-- `a` unwraps everything it has in `w` and gives up its registration. -/
def leave (w : World) (a : AccountId) : List Ev :=
  [.call a 1 true (.nearWithdraw (balanceOf w.c a)), .call a 1 true (.storageUnregister none)]

/-- What is due to `a` then: its balance, the storage deposit and the two yoctoNEAR it attached. -/
def due (w : World) (a : AccountId) : Nat := balanceOf w.c a + minBalance w.c + 2

/-- The two payments of every account that leaves are executed. -/
def payouts (n : Nat) (l : List AccountId) : List Ev :=
  l.flatMap (fun _ => [.deliver n (.value none), .deliver n (.value none)])

/-! ## Helper lemmas -/

theorem run_app (cfg : Cfg) (w : World) (l1 l2 : List Ev) :
    run cfg w (l1 ++ l2) = run cfg (run cfg w l1) l2 := by
  unfold run; rw [List.foldl_append]

theorem accepted_step {cfg : Cfg} {w w' : World} {who : AccountId} {att : Nat} {c : Call}
    (hwho : who ≠ cfg.self) (h : Accepted cfg w who att c w') : step cfg w (.call who att true c) = w' := by
  obtain ⟨s, effs, hx, rfl⟩ := h
  simp only [step, if_neg hwho, hx]

theorem min_run {cfg : Cfg} {w0 : World} (h0 : Started cfg w0) (evs : List Ev) :
    minBalance (run cfg w0 evs).c = minBalance w0.c := (C56_backed h0 evs).2

/-- One account leaves. -/
theorem leave_one {cfg : Cfg} {w0 : World} (h0 : Started cfg w0) (evs : List Ev) {a : AccountId}
    (ha : a ≠ cfg.self) (hreg : (run cfg w0 evs).c.accounts.contains a = true)
    (hfit : balanceOf (run cfg w0 evs).c a + 1 < two128) :
    let w := run cfg w0 evs
    let w' := run cfg w (leave w a)
    w'.c.accounts.contains a = false ∧ (∀ b, b ≠ a → w'.c.accounts.get b = w.c.accounts.get b) ∧
    w'.c.totalSupply + balanceOf w.c a = w.c.totalSupply ∧
    w'.bal + balanceOf w.c a + minBalance w.c = w.bal ∧ w'.paid = w.paid ∧
    w'.receipts = w.receipts ++ [.transfer a (balanceOf w.c a + 1), .transfer a (minBalance w.c + 1)] := by
  intro w w'
  obtain ⟨h1, h2⟩ := C57_withdraw h0 evs a 1 (balanceOf w.c a) hfit
  obtain ⟨w1, hw1⟩ := h1.mpr ⟨rfl, hreg, Nat.le_refl _⟩
  obtain ⟨g1, g2, g3, g4, g5, g6⟩ := h2 w1 hw1
  have hs1 := accepted_step ha hw1
  have hr1 : run cfg w0 (evs ++ [.call a 1 true (.nearWithdraw (balanceOf w.c a))]) = w1 := by
    rw [run_app]; exact hs1
  have hm : minBalance w1.c = minBalance w.c := by
    rw [← hr1, min_run h0, min_run h0]
  have g1 : balanceOf w1.c a + balanceOf w.c a = balanceOf w.c a := g1
  obtain ⟨h3, h4⟩ := C69_unregister h0 (evs ++ [.call a 1 true (.nearWithdraw (balanceOf w.c a))]) a none
    (by rw [hr1]; exact g2)
  rw [hr1] at h3 h4
  obtain ⟨w2, hw2⟩ := h3.mpr (.inl (by omega))
  obtain ⟨k1, k2, k3, k4, k5⟩ := h4 w2 hw2
  have hw' : w' = w2 := by
    show run cfg w (leave w a) = w2
    simp only [leave, run, List.foldl_cons, List.foldl_nil]
    rw [hs1, accepted_step ha hw2]
  have hp1 : w1.paid = w.paid := by obtain ⟨_, _, _, rfl⟩ := hw1; rfl
  have hp2 : w2.paid = w1.paid := by obtain ⟨_, _, _, rfl⟩ := hw2; rfl
  rw [hw']
  have g4 : w1.c.totalSupply + balanceOf w.c a = w.c.totalSupply := g4
  have g5 : w1.bal + balanceOf w.c a = w.bal := g5
  have g6 : w1.receipts = w.receipts ++ [.transfer a (balanceOf w.c a + 1)] := g6
  have g3 : ∀ b, b ≠ a → w1.c.accounts.get b = w.c.accounts.get b := g3
  refine ⟨k1, fun b hb => (k2 b hb).trans (g3 b hb), by omega, by omega, hp2.trans hp1, ?_⟩
  rw [k5, g6, hm]
  simp

theorem paid_one (cfg : Cfg) (w : World) (rs post : List Receipt) (a : AccountId) (x y : Nat)
    (h : w.receipts = rs ++ .transfer a x :: .transfer a y :: post) :
    run cfg w [.deliver rs.length (.value none), .deliver rs.length (.value none)] =
      { w with receipts := rs ++ post, paid := fun b => if b = a then w.paid b + x + y else w.paid b } := by
  have he : ∀ (r : Receipt) (t : List Receipt), (rs ++ r :: t).eraseIdx rs.length = rs ++ t := by
    intro r t
    rw [List.eraseIdx_append_of_length_le (Nat.le_refl _)]
    simp
  simp only [run, List.foldl_cons, List.foldl_nil, step, h, List.getElem?_append_right (Nat.le_refl _),
    Nat.sub_self, List.getElem?_cons_zero, execReceipt, reduceCtorEq, if_false, he]
  congr 1
  funext b
  split <;> rfl

theorem balance_of_get {s s' : State} {a : AccountId} (h : s'.accounts.get a = s.accounts.get a) :
    balanceOf s' a = balanceOf s a := by simp only [balanceOf, h]

/-- All payments are executed. -/
theorem paid_all (cfg : Cfg) (f g : AccountId → Nat) (rs : List Receipt) (l : List AccountId) (hnd : l.Nodup)
    (w : World)
    (h : w.receipts = rs ++ l.flatMap (fun a => [.transfer a (f a), .transfer a (g a)])) :
    run cfg w (payouts rs.length l) =
      { w with receipts := rs, paid := fun b => if b ∈ l then w.paid b + f b + g b else w.paid b } := by
  induction l generalizing w with
  | nil => simp only [payouts, List.flatMap_nil, List.append_nil] at h ⊢; simp [run, ← h]
  | cons a t ih =>
    obtain ⟨hat, hnt⟩ := List.nodup_cons.mp hnd
    simp only [payouts, List.flatMap_cons] at ih ⊢
    rw [run_app, paid_one cfg w rs (t.flatMap (fun a => [.transfer a (f a), .transfer a (g a)])) a (f a) (g a)
      (by rw [h]; simp)]
    rw [ih hnt _ rfl]
    congr 1
    funext b
    by_cases hb : b = a
    · subst hb; simp [hat]
    · simp [hb]

/-! ## Property theorems -/

/-- **C119 (everybody can leave).** After any history, any registered accounts can, in any order, unwrap all
they have and give up their registration, all of them at once: every call is accepted, nobody else's balance
changes, and a payment of the balance and one of the storage deposit are under way to each of them. -/
theorem C119_everybody_can_leave {cfg : Cfg} {w0 : World} (h0 : Started cfg w0) (evs : List Ev)
    (l : List AccountId) (hnd : l.Nodup) :
    let w := run cfg w0 evs
    w.c.totalSupply + 1 < 2 ^ 128 → (∀ a ∈ l, a ≠ cfg.self ∧ w.c.accounts.contains a = true) →
    let w' := run cfg w (l.flatMap (leave w))
    (∀ a ∈ l, w'.c.accounts.contains a = false) ∧
    (∀ a, a ∉ l → w'.c.accounts.get a = w.c.accounts.get a) ∧
    w'.c.totalSupply + (l.map (balanceOf w.c)).sum = w.c.totalSupply ∧
    w'.bal + (l.map (fun a => balanceOf w.c a + minBalance w.c)).sum = w.bal ∧ w'.paid = w.paid ∧
    w'.receipts = w.receipts ++
      l.flatMap (fun a => [.transfer a (balanceOf w.c a + 1), .transfer a (minBalance w.c + 1)]) := by
  induction l generalizing evs with
  | nil =>
    intro w _ _ w'
    exact ⟨fun a ha => absurd ha (List.not_mem_nil), fun _ _ => rfl, rfl, rfl, rfl,
      (List.append_nil _).symm⟩
  | cons a t ih =>
    intro w hfit hl w'
    obtain ⟨hat, hnt⟩ := List.nodup_cons.mp hnd
    obtain ⟨ha, hreg⟩ := hl a List.mem_cons_self
    have hsup : balanceOf w.c a ≤ w.c.totalSupply := by
      obtain ⟨b, hg⟩ : ∃ b, w.c.accounts.get a = some b := by
        have h := hreg
        rw [contains_eq] at h
        exact Option.isSome_iff_exists.mp h
      have h1 : b ≤ total w.c := le_total hg
      have h2 : w.c.totalSupply = total w.c := (winv_run (cfg := cfg) (started_winv h0).1 evs).state.supply
      have hb : balanceOf w.c a = b := by simp [balanceOf, hg]
      omega
    obtain ⟨g1, g2, g3, g4, g5, g6⟩ := leave_one h0 evs ha hreg (by
      have : (2 : Nat) ^ 128 = two128 := rfl
      show balanceOf w.c a + 1 < two128
      omega)
    have hw1 : run cfg w0 (evs ++ leave w a) = run cfg w (leave w a) := run_app ..
    have hm : minBalance (run cfg w (leave w a)).c = minBalance w.c := by
      rw [← hw1, min_run h0, min_run h0]
    have hne : ∀ b ∈ t, b ≠ a := fun b hb h => hat (h ▸ hb)
    have hbal : ∀ b ∈ t, balanceOf (run cfg w (leave w a)).c b = balanceOf w.c b :=
      fun b hb => balance_of_get (g2 b (hne b hb))
    have ih1 := ih (evs ++ leave w a) hnt
    rw [hw1] at ih1
    obtain ⟨k1, k2, k3, k4, k5, k6⟩ := ih1
      (by
        have : (run cfg w (leave w a)).c.totalSupply + balanceOf w.c a = w.c.totalSupply := g3
        omega)
      (fun b hb => ⟨(hl b (List.mem_cons_of_mem _ hb)).1, by
        have := (hl b (List.mem_cons_of_mem _ hb)).2
        rw [contains_eq] at this ⊢
        rw [g2 b (hne b hb)]; exact this⟩)
    have hlv : t.flatMap (leave (run cfg w (leave w a))) = t.flatMap (leave w) := by
      refine List.flatMap_congr (fun b hb => ?_)
      simp only [leave] at hbal ⊢
      rw [hbal b hb]
    rw [hlv] at k1 k2 k3 k4 k5 k6
    have hw' : w' = run cfg (run cfg w (leave w a)) (t.flatMap (leave w)) := by
      show run cfg w ((a :: t).flatMap (leave w)) = _
      rw [List.flatMap_cons, run_app]
    have s1 : t.map (balanceOf (run cfg w (leave w a)).c) = t.map (balanceOf w.c) :=
      List.map_congr_left hbal
    have s2 : t.map (fun b => balanceOf (run cfg w (leave w a)).c b + minBalance (run cfg w (leave w a)).c) =
        t.map (fun b => balanceOf w.c b + minBalance w.c) :=
      List.map_congr_left (fun b hb => by rw [hbal b hb, hm])
    have s3 : t.flatMap (fun b => [Receipt.transfer b (balanceOf (run cfg w (leave w a)).c b + 1),
          .transfer b (minBalance (run cfg w (leave w a)).c + 1)]) =
        t.flatMap (fun b => [.transfer b (balanceOf w.c b + 1), .transfer b (minBalance w.c + 1)]) :=
      List.flatMap_congr (fun b hb => by rw [hbal b hb, hm])
    rw [s1] at k3
    rw [s2] at k4
    rw [s3] at k6
    rw [hw']
    have g3 : (run cfg w (leave w a)).c.totalSupply + balanceOf w.c a = w.c.totalSupply := g3
    have g4 : (run cfg w (leave w a)).bal + balanceOf w.c a + minBalance w.c = w.bal := g4
    refine ⟨?_, ?_, ?_, ?_, k5.trans g5, ?_⟩
    · intro b hb
      rcases List.mem_cons.mp hb with rfl | hb
      · have h1 := k2 b hat
        rw [contains_eq, h1, ← contains_eq]; exact g1
      · exact k1 b hb
    · intro b hb
      rw [k2 b (fun h => hb (List.mem_cons_of_mem _ h)), g2 b (fun h => hb (h ▸ List.mem_cons_self))]
    · simp only [List.map_cons, List.sum_cons]; omega
    · simp only [List.map_cons, List.sum_cons]; omega
    · have g6 : (run cfg w (leave w a)).receipts = w.receipts ++ [.transfer a (balanceOf w.c a + 1),
        .transfer a (minBalance w.c + 1)] := g6
      rw [k6, g6]; simp

/-- **C119 (everybody is paid).** When these payments are executed, each of the accounts has received exactly
its balance, the storage deposit and the two yoctoNEAR it attached, and nobody else has received anything. -/
theorem C119_everybody_is_paid {cfg : Cfg} {w0 : World} (h0 : Started cfg w0) (evs : List Ev)
    (l : List AccountId) (hnd : l.Nodup) :
    let w := run cfg w0 evs
    w.c.totalSupply + 1 < 2 ^ 128 → (∀ a ∈ l, a ≠ cfg.self ∧ w.c.accounts.contains a = true) →
    let w' := run cfg w (l.flatMap (leave w) ++ payouts w.receipts.length l)
    (∀ a ∈ l, w'.paid a = w.paid a + due w a ∧ w'.c.accounts.contains a = false) ∧
    (∀ a, a ∉ l → w'.paid a = w.paid a ∧ w'.c.accounts.get a = w.c.accounts.get a) ∧
    w'.receipts = w.receipts ∧ w'.bal + (l.map (fun a => balanceOf w.c a + minBalance w.c)).sum = w.bal := by
  intro w hfit hl w'
  obtain ⟨g1, g2, g3, g4, g5, g6⟩ := C119_everybody_can_leave h0 evs l hnd hfit hl
  have hw' : w' = run cfg (run cfg w (l.flatMap (leave w))) (payouts w.receipts.length l) := run_app ..
  have hp := paid_all cfg (fun a => balanceOf w.c a + 1) (fun _ => minBalance w.c + 1) w.receipts l hnd _ g6
  rw [hp] at hw'
  rw [hw']
  have g5 : (run cfg w (l.flatMap (leave w))).paid = w.paid := g5
  refine ⟨fun a ha => ⟨?_, g1 a ha⟩, fun a ha => ⟨?_, g2 a ha⟩, rfl, g4⟩
  · have h1 : (run cfg (run cfg w0 evs) (l.flatMap (leave (run cfg w0 evs)))).paid a = w.paid a := congrFun g5 a
    simp only [ha, if_true, due]
    omega
  · simp only [ha, if_false]
    exact congrFun g5 a

/-- **C119 (nothing is left behind).** If these are all registered accounts, the supply is zero afterwards, and
the contract still holds at least what it had at the beginning. -/
theorem C119_nothing_is_left_behind {cfg : Cfg} {w0 : World} (h0 : Started cfg w0) (evs : List Ev)
    (l : List AccountId) (hnd : l.Nodup) :
    let w := run cfg w0 evs
    w.c.totalSupply + 1 < 2 ^ 128 →
    (∀ a, (a ∈ l → a ≠ cfg.self) ∧ (a ∈ l ↔ w.c.accounts.contains a = true)) →
    let w' := run cfg w (l.flatMap (leave w) ++ payouts w.receipts.length l)
    w'.c.totalSupply = 0 ∧ (∀ a, w'.c.accounts.contains a = false) ∧ w0.bal ≤ w'.bal := by
  intro w hfit hl w'
  obtain ⟨g1, g2, _, _⟩ := C119_everybody_is_paid h0 evs l hnd hfit
    (fun a ha => ⟨(hl a).1 ha, (hl a).2.mp ha⟩)
  have hnone : ∀ a, w'.c.accounts.contains a = false := by
    intro a
    by_cases ha : a ∈ l
    · exact (g1 a ha).2
    · have h1 := (g2 a ha).2
      have h2 : w.c.accounts.contains a = false := by
        by_contra h; exact ha ((hl a).2.mpr (by simpa using h))
      rw [contains_eq] at h2 ⊢
      exact (congrArg Option.isSome h1).trans h2
  have hrun : w' = run cfg w0 (evs ++ (l.flatMap (leave w) ++ payouts w.receipts.length l)) := (run_app ..).symm
  obtain ⟨s1, _⟩ := C56_supply h0 (evs ++ (l.flatMap (leave w) ++ payouts w.receipts.length l))
  obtain ⟨s2, _⟩ := C56_backed h0 (evs ++ (l.flatMap (leave w) ++ payouts w.receipts.length l))
  rw [← hrun] at s1 s2
  have hent : w'.c.accounts.entries = [] := by
    rcases he : w'.c.accounts.entries with _ | ⟨p, t⟩
    · rfl
    · exfalso
      have hg : w'.c.accounts.get p.1 = some p.2 := UMap.get_eq_some.mpr (by rw [he]; simp)
      have := hnone p.1
      rw [contains_eq, hg] at this
      cases this
  refine ⟨by rw [s1, hent]; rfl, hnone, by omega⟩

/-- The hypotheses are met: after the history of the examples, with a transfer-call not yet settled, the
exchange and Alice leave. -/
example :
    let w := run demoCfg demo0 demoEvs
    let l := ["dex", "alice"]
    w.c.totalSupply = 1000 ∧ w.c.accounts.keys = ["alice", "dex"] ∧ w.receipts.length = 1 ∧
    (let w' := run demoCfg w (l.flatMap (leave w) ++ payouts w.receipts.length l)
     w'.paid "alice" = 400 + demoMin + 2 ∧ w'.paid "dex" = 600 + demoMin + 2 ∧ w'.bal = 5 + 1 ∧
     w'.c.totalSupply = 0) := by
  decide +kernel

end Verif.WNear
