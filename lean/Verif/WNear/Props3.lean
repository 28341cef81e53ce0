import Verif.WNear.Props2

/-!
# Wrapped NEAR: an account that does nothing (C120)
-/

namespace Verif.WNear

open Verif

/-! ## Specification -/

/-- What a receipt may still take back from `a`: the amount of a transfer-call to `a` that is not settled. -/
def openTo (a : AccountId) : Receipt → Nat
  | .onTransfer _ r x => if r = a then x else 0
  | .resolve _ r x _ => if r = a then x else 0
  | .transfer _ _ => 0

/-- The tokens of all transfer-calls to `a` that are not settled. -/
def unsettled (w : World) (a : AccountId) : Nat := (w.receipts.map (openTo a)).sum

/-- `a` calls nothing. -/
def Idle (a : AccountId) (evs : List Ev) : Prop := ∀ who att host c, Ev.call who att host c ∈ evs → who ≠ a

/-! ## Helper lemmas -/

theorem openTo_transfers {effs : List Eff} (a : AccountId) (h : ∀ e ∈ effs, ∃ r x, e = .transfer r x) :
    ((effs.map Eff.receipt).map (openTo a)).sum = 0 := by
  induction effs with
  | nil => rfl
  | cons e t ih =>
    obtain ⟨r, x, rfl⟩ := h e List.mem_cons_self
    simp only [List.map_cons, Eff.receipt, openTo, List.sum_cons, Nat.zero_add]
    exact ih (fun e he => h e (List.mem_cons_of_mem _ he))

/-- The promises of an accepted call are payments, or the one of a transfer-call. -/
theorem effs_of_call {cfg : Cfg} {w : World} {who : AccountId} {att : Nat} {host : Bool} {c : Call} {s : State}
    {effs : List Eff} (hself : who ≠ cfg.self)
    (hx : exec (mkEnv cfg w who att host []) w.c c = .ok (s, effs)) :
    (∀ e ∈ effs, ∃ r x, e = .transfer r x) ∨
    ∃ r x, c = .ftTransferCall r x ∧ effs = [.transferCall who r x] ∧
      internalTransfer w.c who r x = .ok s := by
  have ifT : ∀ n a, ∀ e ∈ (if n > 0 then [Eff.transfer a n] else []), ∃ r x, e = Eff.transfer r x := by
    intro n a e he
    split at he
    · simp only [List.mem_singleton] at he; exact ⟨_, _, he⟩
    · cases he
  have one : ∀ a n, ∀ e ∈ [Eff.transfer a n], ∃ r x, e = Eff.transfer r x := by
    intro a n e he; simp only [List.mem_singleton] at he; exact ⟨_, _, he⟩
  have nil : ∀ e ∈ ([] : List Eff), ∃ r x, e = Eff.transfer r x := fun e he => by cases he
  cases c with
  | nearDeposit =>
    simp only [exec, bind_ok, pure_ok, Prod.mk.injEq] at hx
    obtain ⟨_, _, _, rfl⟩ := hx
    exact .inl nil
  | nearWithdraw x =>
    obtain ⟨_, _, _, _, _, _, _, _, rfl⟩ := nearWithdraw_ok.mp hx
    exact .inl (one _ _)
  | ftTransfer r x =>
    simp only [exec, bind_ok, pure_ok, Prod.mk.injEq] at hx
    obtain ⟨_, _, _, rfl⟩ := hx
    exact .inl nil
  | ftTransferCall r' x' =>
    obtain ⟨_, _, _, h, _, rfl⟩ := ftTransferCall_ok.mp hx
    exact .inr ⟨r', x', rfl, rfl, h⟩
  | storageDeposit a =>
    obtain ⟨_, _, ⟨_, _, _, rfl⟩ | ⟨_, _, _, _, rfl⟩⟩ := storageDeposit_ok.mp hx
    · exact .inl (ifT _ _)
    · exact .inl (ifT _ _)
  | storageWithdraw x =>
    simp only [exec, bind_ok, pure_ok, Prod.mk.injEq] at hx
    obtain ⟨_, _, _, rfl⟩ := hx
    exact .inl nil
  | storageUnregister f =>
    simp only [exec, bind_ok, Prod.exists, pure_ok, Prod.mk.injEq] at hx
    obtain ⟨s', effs', v, hx, _, rfl⟩ := hx
    obtain ⟨_, ⟨_, _, _, _, _, _, _, rfl, _⟩ | ⟨_, _, rfl, _⟩⟩ := storageUnregister_ok.mp hx
    · exact .inl (one _ _)
    · exact .inl nil
  | ftResolveTransfer a b c =>
    simp only [exec, bind_ok, Prod.exists] at hx
    obtain ⟨s', u, hx, _⟩ := hx
    exact absurd hx (resolve_call hself)

theorem sum_erase {l : List Receipt} {i : Nat} {q : Receipt} (f : Receipt → Nat) (h : l[i]? = some q) :
    ((l.eraseIdx i).map f).sum + f q = (l.map f).sum := by
  obtain ⟨hlt, hget⟩ := List.getElem?_eq_some_iff.mp h
  have hsplit : l = l.take i ++ q :: l.drop (i + 1) := by
    rw [← hget, List.getElem_cons_drop, List.take_append_drop]
  rw [List.eraseIdx_eq_take_drop_succ]
  conv_rhs => rw [hsplit]
  simp only [List.map_append, List.sum_append, List.map_cons, List.sum_cons]
  omega

theorem leftover_le (x : Nat) (r : PResult) : leftover x r ≤ x := by
  match r with
  | .failed => exact Nat.le_refl _
  | .value none => exact Nat.le_refl _
  | .value (some v) => exact Nat.min_le_left _ _

/-- One event that is not a call of `a`. -/
theorem idle_step {cfg : Cfg} {w0 : World} (h0 : Started cfg w0) (evs : List Ev) (ev : Ev) (a : AccountId)
    (hev : ∀ att host c, ev ≠ .call a att host c) :
    let w := run cfg w0 evs
    let w' := step cfg w ev
    balanceOf w.c a + unsettled w' a ≤ balanceOf w'.c a + unsettled w a := by
  intro w w'
  cases ev with
  | income n => exact Nat.le_refl _
  | call who att host c =>
    have hne : a ≠ who := fun h => hev att host c (by rw [h])
    by_cases hself : who = cfg.self
    · simp only [w', step, if_pos hself]; exact Nat.le_refl _
    · cases hx : exec (mkEnv cfg w who att host []) w.c c with
      | error m => simp only [w', step, if_neg hself, hx]; exact Nat.le_refl _
      | ok q =>
        obtain ⟨s, effs⟩ := q
        have hw : w' = applyCall w att s effs := by simp only [w', step, if_neg hself, hx]
        have hbal : balanceOf w.c a ≤ balanceOf s a := by
          cases hb : w.c.accounts.get a with
          | none => simp [balanceOf, hb]
          | some b =>
            obtain ⟨b', h1, h2⟩ := call_other hself hne hb hx
            simpa [balanceOf, hb, h1] using h2
        have hun : unsettled w' a = unsettled w a + ((effs.map Eff.receipt).map (openTo a)).sum := by
          rw [hw]
          simp only [unsettled, applyCall, List.map_append, List.sum_append]
        have hc : w'.c = s := by rw [hw]; rfl
        rw [hun, hc]
        rcases effs_of_call hself hx with h | ⟨r, x, rfl, rfl, h⟩
        · rw [openTo_transfers a h]; omega
        · obtain ⟨h1, h2, b1, c1, h3, h4, h5, h6, h7, h8, rfl⟩ := transfer_ok.mp h
          simp only [List.map_cons, List.map_nil, Eff.receipt, openTo, List.sum_cons, List.sum_nil, Nat.add_zero]
          by_cases hr : r = a
          · subst hr
            have e1 : balanceOf w.c r = c1 := by simp [balanceOf, h4]
            have e2 : balanceOf (mint (burn w.c who b1 x) r c1 x) r = c1 + x := by simp [balanceOf, mint]
            rw [e1, e2, if_pos rfl]; omega
          · rw [if_neg hr]; omega
  | deliver i res =>
    cases hr : w.receipts[i]? with
    | none => simp only [w', step, hr]; exact Nat.le_refl _
    | some q =>
      have hsum := sum_erase (openTo a) hr
      match q, hr, hsum with
      | .transfer r x, hr, hsum =>
        have h1 : w'.c = w.c ∧ w'.receipts = w.receipts.eraseIdx i := by
          simp only [w', step, hr, execReceipt]
          split <;> exact ⟨rfl, rfl⟩
        simp only [openTo] at hsum
        simp only [unsettled, h1.1, h1.2]; omega
      | .onTransfer s r x, hr, hsum =>
        have h1 : w'.c = w.c ∧ w'.receipts = w.receipts.eraseIdx i ++ [.resolve s r x res] := by
          simp [w', step, hr, execReceipt]
        simp only [openTo] at hsum
        simp only [unsettled, h1.1, h1.2, List.map_append, List.sum_append, List.map_cons, List.map_nil,
          List.sum_cons, List.sum_nil, openTo]
        omega
      | .resolve s r x result, hr, hsum =>
        obtain ⟨_, g1, g2, g3, g4, _, g6⟩ := C68_settle h0 evs i res hr
        have g6 : w'.receipts = w.receipts.eraseIdx i := g6
        have g1 : balanceOf w'.c r + min (balanceOf w.c r) (leftover x result) = balanceOf w.c r := g1
        have hle : min (balanceOf w.c r) (leftover x result) ≤ x :=
          (Nat.min_le_right _ _).trans (leftover_le x result)
        simp only [openTo] at hsum
        simp only [unsettled, g6]
        by_cases har : r = a
        · rw [if_pos har] at hsum
          rw [har] at g1 hle
          omega
        · rw [if_neg har] at hsum
          by_cases has : a = s
          · subst has
            cases hc : w.c.accounts.contains a with
            | true =>
              have : balanceOf w'.c a = balanceOf w.c a + min (balanceOf w.c r) (leftover x result) := (g2 hc).1
              omega
            | false =>
              have : balanceOf w.c a = 0 := by
                rw [contains_eq] at hc
                cases hg : w.c.accounts.get a with
                | none => simp [balanceOf, hg]
                | some b => rw [hg] at hc; cases hc
              omega
          · have : balanceOf w'.c a = balanceOf w.c a := balance_of_get (g4 a has (Ne.symm har))
            omega

theorem idle_registered {cfg : Cfg} {w0 : World} (h0 : Started cfg w0) (evs : List Ev) (ev : Ev) (a : AccountId)
    (hev : ∀ att host c, ev ≠ .call a att host c) (hreg : (run cfg w0 evs).c.accounts.contains a = true) :
    (step cfg (run cfg w0 evs) ev).c.accounts.contains a = true := by
  rw [contains_eq] at hreg ⊢
  obtain ⟨b, hb⟩ := Option.isSome_iff_exists.mp hreg
  rcases C67_authority h0 evs ev a hb with ⟨b', h, _⟩ | ⟨host, c, h, _⟩ | ⟨_, _, _, _, _, _, _, h⟩
  · rw [h]; rfl
  · exact absurd h (hev 1 host c)
  · rw [h]; rfl

/-! ## Property theorems -/

/-- **C120 (an idle account).** While an account calls nothing, whatever everybody else does: its balance
without the transfer-calls to it that are not settled never shrinks, and it stays registered. In particular,
it loses at most what it received by transfer-calls that were not settled at the start, and nothing at all if
there were none and none came since. -/
theorem C120_idle_account {cfg : Cfg} {w0 : World} (h0 : Started cfg w0) (evs later : List Ev) (a : AccountId)
    (hidle : Idle a later) :
    let w := run cfg w0 evs
    let w' := run cfg w later
    balanceOf w.c a + unsettled w' a ≤ balanceOf w'.c a + unsettled w a ∧
    (w.c.accounts.contains a = true → w'.c.accounts.contains a = true) := by
  induction later generalizing evs with
  | nil => exact ⟨Nat.le_refl _, id⟩
  | cons ev l ih =>
    intro w w'
    have hev : ∀ att host c, ev ≠ .call a att host c := fun att host c h =>
      hidle a att host c (by rw [h]; exact List.mem_cons_self) rfl
    have hw : run cfg w0 (evs ++ [ev]) = step cfg w ev := by rw [run_app]; rfl
    have ih := ih (evs ++ [ev]) (fun who att host c h => hidle who att host c (List.mem_cons_of_mem _ h))
    rw [hw] at ih
    have g1 : balanceOf (step cfg w ev).c a + unsettled w' a ≤ balanceOf w'.c a + unsettled (step cfg w ev) a := ih.1
    have k1 : balanceOf w.c a + unsettled (step cfg w ev) a ≤ balanceOf (step cfg w ev).c a + unsettled w a :=
      idle_step h0 evs ev a hev
    exact ⟨by omega, fun h => ih.2 (idle_registered h0 evs ev a hev h)⟩

/-- **C120 (what was sent to the contract itself).** Wrapped tokens on the account of the contract itself can
never be unwrapped or moved, apart from the unused part of a transfer-call: whatever happens, its balance
without the transfer-calls to it that are not settled never shrinks, and that part of the supply stays. -/
theorem C120_contract_account {cfg : Cfg} {w0 : World} (h0 : Started cfg w0) (evs later : List Ev) :
    let w := run cfg w0 evs
    let w' := run cfg w later
    balanceOf w.c cfg.self + unsettled w' cfg.self ≤ balanceOf w'.c cfg.self + unsettled w cfg.self ∧
    balanceOf w'.c cfg.self ≤ w'.c.totalSupply := by
  intro w w'
  have hrun : ∀ (l : List Ev) (v : World), ∃ l', Idle cfg.self l' ∧ run cfg v l = run cfg v l' := by
    intro l
    induction l with
    | nil => exact fun v => ⟨[], (fun _ _ _ _ h => by cases h), rfl⟩
    | cons ev t ih =>
      intro v
      obtain ⟨l', h1, h2⟩ := ih (step cfg v ev)
      by_cases hs : ∃ att host c, ev = .call cfg.self att host c
      · obtain ⟨att, host, c, rfl⟩ := hs
        have : step cfg v (.call cfg.self att host c) = v := by simp [step]
        rw [this] at h2
        exact ⟨l', h1, by rw [← h2]; simp only [run, List.foldl_cons, this]⟩
      · refine ⟨ev :: l', fun who att host c hm hw => ?_, by simp only [run, List.foldl_cons] at h2 ⊢; exact h2⟩
        rcases List.mem_cons.mp hm with rfl | hm
        · exact hs ⟨att, host, c, by rw [hw]⟩
        · exact h1 who att host c hm hw
  obtain ⟨l', h1, h2⟩ := hrun later w
  have h3 := (C120_idle_account h0 evs l' cfg.self h1).1
  rw [show run cfg (run cfg w0 evs) l' = w' from h2.symm] at h3
  refine ⟨h3, ?_⟩
  have hw' : w' = run cfg w0 (evs ++ later) := (run_app ..).symm
  have hs : w'.c.totalSupply = total w'.c := by
    rw [hw']; exact (winv_run (cfg := cfg) (started_winv h0).1 (evs ++ later)).state.supply
  cases hg : w'.c.accounts.get cfg.self with
  | none => simp [balanceOf, hg]
  | some b =>
    have := le_total hg
    simp only [balanceOf, hg, Option.getD_some]
    omega

/-- **C120 (the contract accepts its own tokens).** A holder can send wrapped tokens to the contract itself, as
soon as anybody has registered it. -/
theorem C120_contract_can_receive {cfg : Cfg} {w0 : World} (h0 : Started cfg w0) (evs : List Ev)
    (a payer : AccountId) (x : Nat) :
    let w := run cfg w0 evs
    cfg.validAccountId cfg.self = true → a ≠ cfg.self → payer ≠ cfg.self → 0 < x →
    w.c.accounts.contains a = true → x ≤ balanceOf w.c a → minBalance w.c < 2 ^ 128 →
    let w' := run cfg w [.call payer (minBalance w.c) true (.storageDeposit (some cfg.self)),
      .call a 1 true (.ftTransfer cfg.self x)]
    balanceOf w'.c cfg.self = balanceOf w.c cfg.self + x ∧ balanceOf w'.c a + x = balanceOf w.c a := by
  intro w hv ha hp hx hreg hle hmin w'
  obtain ⟨h1, h2⟩ := C69_register (cfg := cfg) w payer (minBalance w.c) hmin (some cfg.self)
    (fun b hb => by cases hb; exact hv)
  obtain ⟨w1, hw1⟩ := h1.mpr (by split <;> omega)
  obtain ⟨g1, g2, g3, _⟩ := h2 w1 hw1
  simp only [Option.getD_some] at g1 g3
  have hs1 := accepted_step hp hw1
  have hr1 : run cfg w0 (evs ++ [.call payer (minBalance w.c) true (.storageDeposit (some cfg.self))]) = w1 := by
    rw [run_app]; exact hs1
  obtain ⟨k1, k2⟩ := C68_transfer h0 (evs ++ [.call payer (minBalance w.c) true (.storageDeposit (some cfg.self))])
    a cfg.self 1 x hv false
  rw [hr1] at k1 k2
  simp only [Bool.false_eq_true, if_false] at k1 k2
  obtain ⟨w2, hw2⟩ := k1.mpr ⟨trivial, ha, hx, by
    have := hreg
    rw [contains_eq] at this ⊢
    rw [g3 a ha]; exact this, g1, by rw [g2 a]; exact hle⟩
  obtain ⟨j1, j2, _⟩ := k2 w2 hw2
  have hw' : w' = w2 := by
    show run cfg w _ = _
    simp only [run, List.foldl_cons, List.foldl_nil]
    rw [hs1, accepted_step ha hw2]
  rw [hw']
  rw [g2] at j1 j2
  exact ⟨j2, j1⟩

/-- The hypotheses are met: the exchange is idle and its 600 are all of one unsettled transfer-call; Alice sends
250 to the contract, and the settlement takes 500 back from the exchange. -/
example :
    let w := run demoCfg demo0 demoEvs
    unsettled w "dex" = 600 ∧ balanceOf w.c "dex" = 600 ∧ unsettled w "alice" = 0 ∧ minBalance w.c < 2 ^ 128 ∧
    (let w' := run demoCfg w [.call "bob" (minBalance w.c) true (.storageDeposit (some "wrap.near")),
      .call "alice" 1 true (.ftTransfer "wrap.near" 250), .deliver 0 .failed]
     balanceOf w'.c "wrap.near" = 250 ∧ balanceOf w'.c "alice" = 400 - 250 + 500 ∧ balanceOf w'.c "dex" = 100 ∧
     unsettled w' "dex" = 0) := by
  decide +kernel

end Verif.WNear
