import Verif.WNear.Lemmas

/-! # Wrapped NEAR: property theorems -/

namespace Verif.WNear

open Verif

/-! ## A concrete deployment used in the examples -/

/-- Account ids are all fine in the examples. -/
def demoCfg : Cfg := { self := "wrap.near", validAccountId := fun a => a ≠ "" }

/-- The state right after `new` with a storage use of 125 bytes per account. -/
def demo0 : World :=
  { c := { accounts := .empty, totalSupply := 0, accountStorageUsage := 125 }, bal := 5, receipts := [],
    paid := fun _ => 0 }

theorem demo0_started : Started demoCfg demo0 := by
  refine ⟨"wrap.near", 125, { accounts := .empty, totalSupply := 0, accountStorageUsage := 125 }, 5, ?_, rfl⟩
  rfl

/-- Storage minimum in the examples. -/
abbrev demoMin : Nat := 125 * 10 ^ 19

/-- Alice wraps, the exchange registers, Alice sends 600 to the exchange with a call of which it uses 100. -/
def demoEvs : List Ev :=
  [ .call "alice" (demoMin + 1000) true .nearDeposit,
    .call "bob" demoMin true (.storageDeposit (some "dex")),
    .call "alice" 1 true (.ftTransferCall "dex" 600),
    .deliver 0 (.value (some 500)) ]

/-- The refund of the unused part. -/
def demoEvs' : List Ev := demoEvs ++ [.deliver 0 .failed]

example : (run demoCfg demo0 demoEvs).receipts = [.resolve "alice" "dex" 600 (.value (some 500))] := by
  decide +kernel
example : balanceOf (run demoCfg demo0 demoEvs).c "alice" = 400 := by decide +kernel
example : balanceOf (run demoCfg demo0 demoEvs).c "dex" = 600 := by decide +kernel
example : balanceOf (run demoCfg demo0 demoEvs').c "alice" = 900 := by decide +kernel
example : balanceOf (run demoCfg demo0 demoEvs').c "dex" = 100 := by decide +kernel
example : (run demoCfg demo0 demoEvs').c.totalSupply = 1000 := by decide +kernel

/-! ## C56: full backing -/

/-- The supply is the sum of the balances of all registered accounts, in every history. -/
theorem C56_supply {cfg : Cfg} {w0 : World} (h0 : Started cfg w0) (evs : List Ev) :
    let c := (run cfg w0 evs).c
    c.totalSupply = (c.accounts.entries.map (fun p => p.2)).sum ∧ c.totalSupply < two128 := by
  have hi := (winv_run (cfg := cfg) (started_winv h0).1 evs).state
  exact ⟨hi.supply, hi.range⟩

theorem len_registered (s : State) : s.accounts.len = registered s := by
  unfold registered UMap.sum
  rw [UMap.len_eq_keys]
  simp [UMap.keys]

/-- The tokens of the contract cover the supply, the storage deposits of all registered accounts, and what
the contract had at the beginning. -/
theorem C56_backed {cfg : Cfg} {w0 : World} (h0 : Started cfg w0) (evs : List Ev) :
    let w := run cfg w0 evs
    w0.bal + w.c.totalSupply + minBalance w.c * w.c.accounts.len ≤ w.bal ∧
      minBalance w.c = minBalance w0.c := by
  intro w
  have hi := winv_run (started_winv h0).1 evs (cfg := cfg)
  have hm := hi.money
  have hs := hi.state.supply
  have hmin : minBalance w.c = storageByteCost * w0.c.accountStorageUsage := by
    unfold minBalance; rw [hi.state.usage]
  refine ⟨?_, hmin⟩
  rw [hmin, len_registered]
  show _ ≤ (run cfg w0 evs).bal
  simp only [w]
  omega

example : (run demoCfg demo0 demoEvs').bal = 5 + 1000 + demoMin * 2 + 1 := by decide +kernel

/-! ## C57: wrapping and unwrapping -/

/-- The call has been accepted and `r` is its outcome. -/
def Accepted (cfg : Cfg) (w : World) (who : AccountId) (att : Nat) (c : Call) (w' : World) : Prop :=
  ∃ s effs, exec (mkEnv cfg w who att true []) w.c c = .ok (s, effs) ∧ w' = applyCall w att s effs

/-- What `near_deposit` does: it is accepted exactly if the deposit is positive and, for an account that is
not registered, covers the storage minimum; exactly the deposit, for a new account exactly the deposit
less the minimum, is minted to the caller; nobody else's balance changes; the deposit stays in the
contract and nothing is sent. -/
theorem C57_deposit {cfg : Cfg} {w0 : World} (h0 : Started cfg w0) (evs : List Ev) (who : AccountId) (att : Nat)
    (hfit : (run cfg w0 evs).c.totalSupply + att < two128) :
    let w := run cfg w0 evs
    let fee := if w.c.accounts.contains who = true then 0 else minBalance w.c
    ((∃ w', Accepted cfg w who att .nearDeposit w') ↔ 0 < att ∧ fee ≤ att) ∧
    ∀ w', Accepted cfg w who att .nearDeposit w' →
      balanceOf w'.c who = balanceOf w.c who + (att - fee) ∧
      w'.c.accounts.contains who = true ∧
      (∀ a, a ≠ who → w'.c.accounts.get a = w.c.accounts.get a) ∧
      w'.c.totalSupply = w.c.totalSupply + (att - fee) ∧
      w'.bal = w.bal + att ∧ w'.receipts = w.receipts := by
  intro w fee
  have hi : WInv _ _ w := winv_run (started_winv h0).1 evs
  have hsup := hi.state.supply
  have key : ∀ s effs, exec (mkEnv cfg w who att true []) w.c .nearDeposit = .ok (s, effs) ↔
      nearDeposit (mkEnv cfg w who att true []) w.c = .ok s ∧ effs = [] := by
    intro s effs
    simp only [exec, bind_ok, pure_ok, Prod.mk.injEq]
    constructor
    · rintro ⟨_, h, rfl, rfl⟩; exact ⟨h, rfl⟩
    · rintro ⟨h, rfl⟩; exact ⟨_, h, rfl, rfl⟩
  have hpred : (mkEnv cfg w who att true []).predecessor = who := rfl
  have hatt : (mkEnv cfg w who att true []).attachedDeposit = att := rfl
  have hdep : ∀ s, nearDeposit (mkEnv cfg w who att true []) w.c = .ok s ↔ _ := fun s => nearDeposit_ok
  rw [hpred, hatt] at hdep
  cases hg : w.c.accounts.get who with
  | some b =>
    have hfee : fee = 0 := by simp [fee, contains_eq, hg]
    have hle := le_total hg
    constructor
    · constructor
      · rintro ⟨w', s, effs, hx, rfl⟩
        obtain ⟨_, h2, _⟩ := (hdep s).mp ((key s effs).mp hx).1
        exact ⟨h2, by omega⟩
      · rintro ⟨h1, _⟩
        refine ⟨_, mint w.c who b att, [], (key _ _).mpr ⟨(hdep _).mpr ?_, rfl⟩, rfl⟩
        have hf : w.c.totalSupply + att < two128 := hfit
        have hb : b + att < two128 := by omega
        exact ⟨by omega, h1, .inl ⟨b, hg, hb, hfit, rfl⟩⟩
    · rintro w' ⟨s, effs, hx, rfl⟩
      obtain ⟨hx', rfl⟩ := (key s effs).mp hx
      obtain ⟨_, h2, ⟨b', h3, h4, h5, rfl⟩ | ⟨h3, _⟩⟩ := (hdep s).mp hx'
      · rw [hg] at h3; cases h3
        rw [hfee]
        refine ⟨?_, ?_, ?_, ?_, by simp [applyCall], by simp [applyCall]⟩
        · simp [applyCall, mint, balanceOf, hg]
        · simp [applyCall, mint, contains_eq]
        · intro a ha
          simp only [applyCall, mint]
          exact UMap.get_insert_ne (fun h => ha h.symm)
        · simp [applyCall, mint]
      · rw [hg] at h3; cases h3
  | none =>
    have hfee : fee = minBalance w.c := by simp [fee, contains_eq, hg]
    constructor
    · constructor
      · rintro ⟨w', s, effs, hx, rfl⟩
        obtain ⟨_, h2, ⟨b', h3, _⟩ | ⟨_, h4, _⟩⟩ := (hdep s).mp ((key s effs).mp hx).1
        · rw [hg] at h3; cases h3
        · exact ⟨h2, by omega⟩
      · rintro ⟨h1, h2⟩
        refine ⟨_, mint { w.c with accounts := w.c.accounts.insert who 0 } who 0 (att - minBalance w.c), [],
          (key _ _).mpr ⟨(hdep _).mpr ?_, rfl⟩, rfl⟩
        have hf : w.c.totalSupply + att < two128 := hfit
        exact ⟨by omega, h1, .inr ⟨hg, by omega, by omega, rfl⟩⟩
    · rintro w' ⟨s, effs, hx, rfl⟩
      obtain ⟨hx', rfl⟩ := (key s effs).mp hx
      obtain ⟨_, h2, ⟨b', h3, _⟩ | ⟨h3, h4, h5, rfl⟩⟩ := (hdep s).mp hx'
      · rw [hg] at h3; cases h3
      · rw [hfee]
        refine ⟨?_, ?_, ?_, ?_, by simp [applyCall], by simp [applyCall]⟩
        · simp [applyCall, mint, balanceOf, hg]
        · simp [applyCall, mint, contains_eq]
        · intro a ha
          simp only [applyCall, mint]
          rw [UMap.get_insert_ne (fun h => ha h.symm), UMap.get_insert_ne (fun h => ha h.symm)]
        · simp [applyCall, mint]

example : (run demoCfg demo0 demoEvs').c.totalSupply + 7 < two128 := by decide +kernel

/-- `near_withdraw(x)` is accepted exactly if one yocto is attached and the caller is registered with at
least `x` (and `x + 1` is a `u128`); it burns exactly `x` of the caller and sends `x + 1` to the caller. The
contract always has the tokens. -/
theorem C57_withdraw {cfg : Cfg} {w0 : World} (h0 : Started cfg w0) (evs : List Ev) (who : AccountId)
    (att x : Nat) (hx1 : x + 1 < two128) :
    let w := run cfg w0 evs
    ((∃ w', Accepted cfg w who att (.nearWithdraw x) w') ↔
      att = 1 ∧ w.c.accounts.contains who = true ∧ x ≤ balanceOf w.c who) ∧
    ∀ w', Accepted cfg w who att (.nearWithdraw x) w' →
      balanceOf w'.c who + x = balanceOf w.c who ∧
      w'.c.accounts.contains who = true ∧
      (∀ a, a ≠ who → w'.c.accounts.get a = w.c.accounts.get a) ∧
      w'.c.totalSupply + x = w.c.totalSupply ∧
      w'.bal + x = w.bal ∧ w'.receipts = w.receipts ++ [.transfer who (x + 1)] := by
  intro w
  have hi : WInv _ _ w := winv_run (started_winv h0).1 evs
  have hsup := hi.state.supply
  have hmon := hi.money
  have hpred : (mkEnv cfg w who att true []).predecessor = who := rfl
  have hatt : (mkEnv cfg w who att true []).attachedDeposit = att := rfl
  have hbal : (mkEnv cfg w who att true []).accountBalance = w.bal + att := rfl
  have key : ∀ s effs, exec (mkEnv cfg w who att true []) w.c (.nearWithdraw x) = .ok (s, effs) ↔ _ :=
    fun s effs => nearWithdraw_ok
  rw [hpred, hatt, hbal] at key
  constructor
  · constructor
    · rintro ⟨w', s, effs, hx, rfl⟩
      obtain ⟨h1, b, h2, h3, _⟩ := (key s effs).mp hx
      exact ⟨h1, by simp [contains_eq, h2], by simp [balanceOf, h2, h3]⟩
    · rintro ⟨h1, h2, h3⟩
      cases hg : w.c.accounts.get who with
      | none => simp [contains_eq, hg] at h2
      | some b =>
        have hle := le_total hg
        have hb : balanceOf w.c who = b := by simp [balanceOf, hg]
        exact ⟨_, burn w.c who b x, [.transfer who (x + 1)], (key _ _).mpr
          ⟨h1, b, hg, by omega, by omega, hx1, by omega, rfl, rfl⟩, rfl⟩
  · rintro w' ⟨s, effs, hx, rfl⟩
    obtain ⟨h1, b, h2, h3, h4, h5, h6, rfl, rfl⟩ := (key s effs).mp hx
    have hle := le_total h2
    refine ⟨?_, ?_, ?_, ?_, ?_, rfl⟩
    · simp only [applyCall, burn, balanceOf, UMap.get_insert_self, h2, Option.getD_some]; omega
    · simp [applyCall, burn, contains_eq]
    · intro a ha
      simp only [applyCall, burn]
      exact UMap.get_insert_ne (fun h => ha h.symm)
    · simp only [applyCall, burn]; omega
    · simp only [applyCall, List.map_cons, List.map_nil, List.sum_cons, List.sum_nil, Eff.out]; omega

/-- `near_withdraw(0)` is accepted from every registered account with one yocto attached, although the
documentation asks for a positive amount (w-near/src/w_near.rs:34); it changes no balance and returns the
yocto. -/
theorem C57_withdraw_zero {cfg : Cfg} {w0 : World} (h0 : Started cfg w0) (evs : List Ev) (who : AccountId) :
    let w := run cfg w0 evs
    ((∃ w', Accepted cfg w who 1 (.nearWithdraw 0) w') ↔ w.c.accounts.contains who = true) ∧
    ∀ w', Accepted cfg w who 1 (.nearWithdraw 0) w' →
      (∀ a, balanceOf w'.c a = balanceOf w.c a) ∧ w'.c.totalSupply = w.c.totalSupply := by
  intro w
  obtain ⟨h1, h2⟩ := C57_withdraw h0 evs who 1 0 (by unfold two128; norm_num)
  refine ⟨h1.trans ⟨fun h => h.2.1, fun h => ⟨rfl, h, Nat.zero_le _⟩⟩, fun w' hw' => ?_⟩
  obtain ⟨g1, _, g3, g4, _⟩ := h2 w' hw'
  refine ⟨fun a => ?_, g4⟩
  by_cases ha : a = who
  · subst ha; exact g1
  · simp only [balanceOf, g3 a ha]; rfl

example : (run demoCfg demo0 demoEvs').c.accounts.contains "alice" = true := by decide +kernel

/-- An accepted withdrawal is really paid: when its transfer is executed the caller has `x + 1` more. -/
theorem C57_withdraw_paid {cfg : Cfg} {w0 : World} (h0 : Started cfg w0) (evs : List Ev) (who : AccountId)
    (att x : Nat) (hx1 : x + 1 < two128) {w' : World}
    (ha : Accepted cfg (run cfg w0 evs) who att (.nearWithdraw x) w') (v : Option Nat) :
    let w2 := step cfg w' (.deliver (run cfg w0 evs).receipts.length (.value v))
    w2.paid who = (run cfg w0 evs).paid who + x + 1 ∧ w2.receipts = (run cfg w0 evs).receipts := by
  obtain ⟨h1, h2⟩ := C57_withdraw h0 evs who att x hx1
  obtain ⟨_, _, _, _, _, h3⟩ := h2 w' ha
  obtain ⟨s, effs, _, rfl⟩ := ha
  simp only [step, h3]
  rw [List.getElem?_append_right (Nat.le_refl _)]
  simp only [Nat.sub_self, List.getElem?_cons_zero, execReceipt, reduceCtorEq, if_false, if_true]
  refine ⟨by simp only [applyCall]; omega, ?_⟩
  rw [List.eraseIdx_append_of_length_le (Nat.le_refl _)]
  simp

/-- Wrapping then unwrapping: after `near_deposit` of `att` (which mints `m`) the caller can withdraw `m`
again, and then everybody's balance, the supply and every other registration are as before. -/
theorem C57_roundtrip {cfg : Cfg} {w0 : World} (h0 : Started cfg w0) (evs : List Ev) (who : AccountId)
    (hwho : who ≠ cfg.self) (att : Nat)
    (hfit : (run cfg w0 evs).c.totalSupply + att + 1 < two128) {w1 : World}
    (h1 : Accepted cfg (run cfg w0 evs) who att .nearDeposit w1) :
    let w := run cfg w0 evs
    let m := att - (if w.c.accounts.contains who = true then 0 else minBalance w.c)
    ∃ w2, Accepted cfg w1 who 1 (.nearWithdraw m) w2 ∧
      (∀ a, balanceOf w2.c a = balanceOf w.c a) ∧ w2.c.totalSupply = w.c.totalSupply ∧
      (∀ a, a ≠ who → w2.c.accounts.get a = w.c.accounts.get a) ∧
      w2.receipts = w.receipts ++ [.transfer who (m + 1)] := by
  intro w m
  obtain ⟨_, hd⟩ := C57_deposit h0 evs who att (by omega)
  obtain ⟨d1, d2, d3, d4, d5, d6⟩ := hd w1 h1
  have hrun : w1 = run cfg w0 (evs ++ [.call who att true .nearDeposit]) := by
    obtain ⟨s, effs, hx, rfl⟩ := h1
    have : run cfg w0 (evs ++ [.call who att true .nearDeposit]) =
        step cfg (run cfg w0 evs) (.call who att true .nearDeposit) := by
      unfold run; rw [List.foldl_append]; rfl
    rw [this]
    simp only [step, if_neg hwho, hx]
  have hm : m ≤ att := Nat.sub_le _ _
  obtain ⟨e1, e2⟩ := C57_withdraw (cfg := cfg) h0 (evs ++ [.call who att true .nearDeposit]) who 1 m (by omega)
  rw [← hrun] at e1 e2
  obtain ⟨w2, hw2⟩ := e1.mpr ⟨rfl, d2, by rw [d1]; exact Nat.le_add_left _ _⟩
  obtain ⟨f1, f2, f3, f4, f5, f6⟩ := e2 w2 hw2
  refine ⟨w2, hw2, ?_, ?_, ?_, ?_⟩
  · intro a
    by_cases ha : a = who
    · subst ha
      have : balanceOf w1.c a = balanceOf w.c a + m := d1
      show balanceOf w2.c a = balanceOf w.c a
      omega
    · unfold balanceOf; rw [f3 a ha, d3 a ha]
  · have : w1.c.totalSupply = w.c.totalSupply + m := d4
    show w2.c.totalSupply = w.c.totalSupply
    omega
  · intro a ha; rw [f3 a ha, d3 a ha]
  · rw [f6, d6]

/-- The round trip on the demo history. -/
example : ∃ w1, Accepted demoCfg (run demoCfg demo0 demoEvs') "carol" (demoMin + 9) .nearDeposit w1 ∧
    balanceOf w1.c "carol" = 9 := by
  refine ⟨_, ⟨_, _, rfl, rfl⟩, ?_⟩
  decide +kernel

/-! ## C67: who can take tokens from an account -/

/-- An account is left alone by calls of others. -/
theorem call_other {cfg : Cfg} {w : World} {who a : AccountId} (hw : who ≠ cfg.self) (ha : a ≠ who) {att : Nat}
    {host : Bool} {c : Call} {s : State} {effs : List Eff} {b : Nat} (hb : w.c.accounts.get a = some b)
    (hx : exec (mkEnv cfg w who att host []) w.c c = .ok (s, effs)) :
    ∃ b', s.accounts.get a = some b' ∧ b ≤ b' := by
  have hne : who ≠ a := fun h => ha h.symm
  have tr : ∀ r x s', internalTransfer w.c who r x = .ok s' → ∃ b', s'.accounts.get a = some b' ∧ b ≤ b' := by
    intro r x s' h
    obtain ⟨h1, h2, b1, c1, h3, h4, h5, h6, h7, h8, rfl⟩ := transfer_ok.mp h
    by_cases hr : r = a
    · subst hr
      rw [hb] at h4; cases h4
      exact ⟨b + x, by simp [mint], by omega⟩
    · exact ⟨b, by simp only [mint, burn, UMap.get_insert, if_neg hr, if_neg hne]; exact hb, Nat.le_refl _⟩
  cases c with
  | nearDeposit =>
    simp only [exec, bind_ok, pure_ok, Prod.mk.injEq] at hx
    obtain ⟨s', hx, rfl, rfl⟩ := hx
    have hg : (mkEnv cfg w who att host []).predecessor = who := rfl
    obtain ⟨_, _, ⟨_, _, _, _, rfl⟩ | ⟨_, _, _, rfl⟩⟩ := nearDeposit_ok.mp hx
    · exact ⟨b, by simp only [mint, hg, UMap.get_insert, if_neg hne]; exact hb, Nat.le_refl _⟩
    · exact ⟨b, by simp only [mint, hg, UMap.get_insert, if_neg hne]; exact hb, Nat.le_refl _⟩
  | nearWithdraw x =>
    obtain ⟨_, _, _, _, _, _, _, rfl, rfl⟩ := nearWithdraw_ok.mp hx
    exact ⟨b, by simp only [burn, mkEnv, UMap.get_insert, if_neg hne]; exact hb, Nat.le_refl _⟩
  | ftTransfer r x =>
    simp only [exec, bind_ok, pure_ok, Prod.mk.injEq] at hx
    obtain ⟨s', hx, rfl, rfl⟩ := hx
    exact tr _ _ _ (ftTransfer_ok.mp hx).2.2.2
  | ftTransferCall r x =>
    exact tr _ _ _ (ftTransferCall_ok.mp hx).2.2.2.1
  | storageDeposit o =>
    obtain ⟨_, _, ⟨_, _, rfl, _⟩ | ⟨h1, _, _, rfl, _⟩⟩ := storageDeposit_ok.mp hx
    · exact ⟨b, hb, Nat.le_refl _⟩
    · refine ⟨b, ?_, Nat.le_refl _⟩
      rw [← hb]
      refine UMap.get_insert_ne ?_
      intro h; rw [h, hb] at h1; cases h1
  | storageWithdraw x =>
    simp only [exec, bind_ok, pure_ok, Prod.mk.injEq, storageWithdraw, assertOneYocto, require_ok] at hx
    obtain ⟨s', ⟨_, _, _, _, _, _, rfl⟩, rfl, rfl⟩ := hx
    exact ⟨b, hb, Nat.le_refl _⟩
  | storageUnregister f =>
    simp only [exec, bind_ok, Prod.exists, pure_ok, Prod.mk.injEq] at hx
    obtain ⟨s', effs', v, hx, rfl, rfl⟩ := hx
    obtain ⟨_, ⟨_, _, _, _, _, _, rfl, _⟩ | ⟨_, rfl, _⟩⟩ := storageUnregister_ok.mp hx
    · exact ⟨b, by simp only [mkEnv]; rw [UMap.get_remove_ne hne]; exact hb, Nat.le_refl _⟩
    · exact ⟨b, hb, Nat.le_refl _⟩
  | ftResolveTransfer x y z =>
    simp only [exec, bind_ok, Prod.exists] at hx
    obtain ⟨s', u, hx, _⟩ := hx
    exact absurd hx (resolve_call hw)

/-- What the owner's own calls take from the balance. -/
def taken (b : Nat) : Call → Nat
  | .nearWithdraw x => x
  | .ftTransfer _ x => x
  | .ftTransferCall _ x => x
  | .storageUnregister _ => b
  | _ => 0

/-- A registered account keeps its registration and its balance in every step, except that its own calls
with one attached yocto take exactly what they name (`storage_unregister` everything, and without `force`
only a balance of zero), and that the unused part of a transfer-call it received may go back. -/
theorem C67_authority {cfg : Cfg} {w0 : World} (h0 : Started cfg w0) (evs : List Ev) (ev : Ev) (a : AccountId)
    {b : Nat} (hb : (run cfg w0 evs).c.accounts.get a = some b) :
    let w := run cfg w0 evs
    let w' := step cfg w ev
    (∃ b', w'.c.accounts.get a = some b' ∧ b ≤ b') ∨
    (∃ host c, ev = .call a 1 host c ∧ taken b c ≤ b ∧
      ((∃ f, c = .storageUnregister f ∧ (b = 0 ∨ f = some true) ∧ w'.c.accounts.get a = none) ∨
       (w'.c.accounts.get a = some (b - taken b c)))) ∨
    (∃ i res s x result, ev = .deliver i res ∧ w.receipts[i]? = some (.resolve s a x result) ∧
      w'.c.accounts.get a = some (b - min b (unusedAmount x result))) := by
  intro w w'
  have hi : WInv _ _ w := winv_run (started_winv h0).1 evs
  have hb : w.c.accounts.get a = some b := hb
  cases ev with
  | income n => exact .inl ⟨b, hb, Nat.le_refl _⟩
  | call who att host c =>
    by_cases hself : who = cfg.self
    · refine .inl ⟨b, ?_, Nat.le_refl _⟩
      simp only [w', step, if_pos hself]; exact hb
    · cases hx : exec (mkEnv cfg w who att host []) w.c c with
      | error m =>
        refine .inl ⟨b, ?_, Nat.le_refl _⟩
        simp only [w', step, if_neg hself, hx]; exact hb
      | ok r =>
        obtain ⟨s, effs⟩ := r
        have hw' : w'.c = s := by simp only [w', step, if_neg hself, hx, applyCall]
        rw [hw']
        by_cases ha : a = who
        · subst ha
          have hp : (mkEnv cfg w a att host []).predecessor = a := rfl
          have tr : ∀ r x s', internalTransfer w.c a r x = .ok s' →
              x ≤ b ∧ s'.accounts.get a = some (b - x) := by
            intro r x s' h
            obtain ⟨h1, h2, b1, c1, h3, h4, h5, h6, h7, h8, rfl⟩ := transfer_ok.mp h
            rw [hb] at h3; cases h3
            refine ⟨h5, ?_⟩
            simp only [mint, burn, UMap.get_insert, if_neg (fun h => h1 h.symm : r ≠ a), if_true]
          cases c with
          | nearDeposit =>
            simp only [exec, bind_ok, pure_ok, Prod.mk.injEq] at hx
            obtain ⟨s', hx, rfl, rfl⟩ := hx
            obtain ⟨_, _, ⟨b', h1, _, _, rfl⟩ | ⟨h1, _, _, rfl⟩⟩ := nearDeposit_ok.mp hx
            · rw [hp, hb] at h1; cases h1
              exact .inl ⟨b + att, by simp [mint, mkEnv], by omega⟩
            · rw [hp, hb] at h1; cases h1
          | nearWithdraw x =>
            obtain ⟨h1, b', h2, h3, _, _, _, rfl, _⟩ := nearWithdraw_ok.mp hx
            rw [hp, hb] at h2; cases h2
            have h1 : att = 1 := h1
            subst h1
            refine .inr (.inl ⟨host, _, rfl, h3, .inr ?_⟩)
            simp [burn, mkEnv, taken]
          | ftTransfer r x =>
            simp only [exec, bind_ok, pure_ok, Prod.mk.injEq] at hx
            obtain ⟨s', hx, rfl, rfl⟩ := hx
            obtain ⟨_, _, h1, h2⟩ := ftTransfer_ok.mp hx
            have h1 : att = 1 := h1
            subst h1
            exact .inr (.inl ⟨host, _, rfl, (tr _ _ _ h2).1, .inr (tr _ _ _ h2).2⟩)
          | ftTransferCall r x =>
            obtain ⟨_, _, h1, h2, _⟩ := ftTransferCall_ok.mp hx
            have h1 : att = 1 := h1
            subst h1
            exact .inr (.inl ⟨host, _, rfl, (tr _ _ _ h2).1, .inr (tr _ _ _ h2).2⟩)
          | storageDeposit o =>
            obtain ⟨_, _, ⟨_, _, rfl, _⟩ | ⟨h1, _, _, rfl, _⟩⟩ := storageDeposit_ok.mp hx
            · exact .inl ⟨b, hb, Nat.le_refl _⟩
            · refine .inl ⟨b, ?_, Nat.le_refl _⟩
              rw [← hb]
              refine UMap.get_insert_ne ?_
              intro h; rw [h, hb] at h1; cases h1
          | storageWithdraw x =>
            simp only [exec, bind_ok, pure_ok, Prod.mk.injEq, storageWithdraw, assertOneYocto, require_ok] at hx
            obtain ⟨s', ⟨_, _, _, _, _, _, rfl⟩, rfl, rfl⟩ := hx
            exact .inl ⟨b, hb, Nat.le_refl _⟩
          | storageUnregister f =>
            simp only [exec, bind_ok, Prod.exists, pure_ok, Prod.mk.injEq] at hx
            obtain ⟨s', effs', v, hx, rfl, rfl⟩ := hx
            obtain ⟨h1, ⟨b', h2, h3, _, _, _, rfl, _⟩ | ⟨h2, _⟩⟩ := storageUnregister_ok.mp hx
            · rw [hp, hb] at h2; cases h2
              have h1 : att = 1 := h1
              subst h1
              refine .inr (.inl ⟨host, _, rfl, Nat.le_refl _, .inl ⟨f, rfl, ?_, ?_⟩⟩)
              · rcases h3 with h3 | h3
                · exact .inl h3
                · right
                  cases f with
                  | none => cases h3
                  | some v => rw [show v = true from h3]
              · simp [mkEnv]
            · rw [hp, hb] at h2; cases h2
          | ftResolveTransfer x y z =>
            simp only [exec, bind_ok, Prod.exists] at hx
            obtain ⟨s', u, hx, _⟩ := hx
            exact absurd hx (resolve_call hself)
        · exact .inl (call_other hself ha hb hx)
  | deliver i res =>
    cases hr : w.receipts[i]? with
    | none =>
      refine .inl ⟨b, ?_, Nat.le_refl _⟩
      simp only [w', step, hr]; exact hb
    | some r =>
      have hok := hi.receipts r (List.mem_of_getElem? hr)
      match r, hok, hr with
      | .transfer r x, _, hr =>
        refine .inl ⟨b, ?_, Nat.le_refl _⟩
        simp only [w', step, hr, execReceipt]
        split <;> exact hb
      | .onTransfer s r x, _, hr =>
        refine .inl ⟨b, ?_, Nat.le_refl _⟩
        simp only [w', step, hr, execReceipt]; exact hb
      | .resolve s r x result, hok, hr =>
        obtain ⟨s', used, burned, h1, h2, h3, h4, h5, h6, h7⟩ :=
          resolve_total hi.state hok.1 (unused_le x result)
        have hw' : w'.c = s' := by simp only [w', step, hr, execReceipt, callback_eq h1]
        rw [hw']
        by_cases ha : a = r
        · subst ha
          refine .inr (.inr ⟨i, res, s, x, result, rfl, hr, ?_⟩)
          have hbb : balanceOf w.c a = b := by simp [balanceOf, hb]
          rw [hbb] at h5
          have hreg : ∃ b', s'.accounts.get a = some b' := by
            unfold resolve at h1
            have := hok.1
            split at h1
            · simp only [bind_ok, subU_ok] at h1
              obtain ⟨_, ⟨_, rfl⟩, h1⟩ := h1
              split at h1
              · simp only [bind_ok, pure_ok, Prod.mk.injEq] at h1
                obtain ⟨_, _, _, _, rfl, _⟩ := h1
                simp only [UMap.get_insert, if_neg hok.1, if_true]
                exact ⟨_, rfl⟩
              · simp only [bind_ok, pure_ok, Prod.mk.injEq] at h1
                obtain ⟨_, _, rfl, _⟩ := h1
                simp
            · simp only [pure_ok, Prod.mk.injEq] at h1
              obtain ⟨rfl, _⟩ := h1
              exact ⟨b, hb⟩
          obtain ⟨b', hb'⟩ := hreg
          have : balanceOf s' a = b' := by simp [balanceOf, hb']
          rw [hb']
          congr 1
          omega
        · by_cases ha' : a = s
          · subst ha'
            rcases h7 with ⟨b', g1, g2, _⟩ | ⟨g1, _⟩
            · rw [hb] at g1; cases g1
              exact .inl ⟨_, g2, Nat.le_add_right _ _⟩
            · rw [hb] at g1; cases g1
          · exact .inl ⟨b, by rw [h6 a ha' ha]; exact hb, Nat.le_refl _⟩

/-- In the demo the exchange gives back the 500 it did not use, by the callback and in no other way. -/
example : (run demoCfg demo0 demoEvs).c.accounts.get "dex" = some 600 ∧
    (step demoCfg (run demoCfg demo0 demoEvs) (.deliver 0 .failed)).c.accounts.get "dex" = some 100 := by
  decide +kernel

/-- Nobody outside can run the callback of a transfer-call. -/
theorem C67_callback_private {cfg : Cfg} (w : World) (who : AccountId) (att : Nat) (host : Bool) (a b : AccountId)
    (x : Nat) : step cfg w (.call who att host (.ftResolveTransfer a b x)) = w := by
  simp only [step]
  split
  · rfl
  · rename_i hw
    cases hx : exec (mkEnv cfg w who att host []) w.c (.ftResolveTransfer a b x) with
    | error m => rfl
    | ok r =>
      obtain ⟨s, effs⟩ := r
      simp only [exec, bind_ok, Prod.exists] at hx
      obtain ⟨s', u, hx, _⟩ := hx
      exact absurd hx (resolve_call hw)

/-! ## C68: transfers and transfer-calls -/

/-- `ft_transfer` and `ft_transfer_call` of `x` from `who` to `r` are accepted exactly if one yocto is
attached, `r` is another registered account, and the caller is registered with at least `x > 0`; they move
exactly `x`. `ft_transfer_call` additionally sends the notification. -/
theorem C68_transfer {cfg : Cfg} {w0 : World} (h0 : Started cfg w0) (evs : List Ev) (who r : AccountId)
    (att x : Nat) (hv : cfg.validAccountId r = true) (notify : Bool) :
    let w := run cfg w0 evs
    let c := if notify then Call.ftTransferCall r x else Call.ftTransfer r x
    ((∃ w', Accepted cfg w who att c w') ↔
      att = 1 ∧ who ≠ r ∧ 0 < x ∧ w.c.accounts.contains who = true ∧ w.c.accounts.contains r = true ∧
      x ≤ balanceOf w.c who) ∧
    ∀ w', Accepted cfg w who att c w' →
      balanceOf w'.c who + x = balanceOf w.c who ∧ balanceOf w'.c r = balanceOf w.c r + x ∧
      (∀ a, a ≠ who → a ≠ r → w'.c.accounts.get a = w.c.accounts.get a) ∧
      w'.c.totalSupply = w.c.totalSupply ∧
      w'.receipts = w.receipts ++ (if notify then [.onTransfer who r x] else []) := by
  intro w c
  have hi : WInv _ _ w := winv_run (started_winv h0).1 evs
  have hsup := hi.state.supply
  have hran := hi.state.range
  have key : ∀ s effs, exec (mkEnv cfg w who att true []) w.c c = .ok (s, effs) ↔
      x < two128 ∧ att = 1 ∧ internalTransfer w.c who r x = .ok s ∧
      effs = if notify then [.transferCall who r x] else [] := by
    intro s effs
    have hp : (mkEnv cfg w who att true []).predecessor = who := rfl
    have ha : (mkEnv cfg w who att true []).attachedDeposit = att := rfl
    have hvv : (mkEnv cfg w who att true []).validAccountId r = true := hv
    have hh : (mkEnv cfg w who att true []).hostOk = true := rfl
    cases notify with
    | true =>
      simp only [c, if_true, exec, ftTransferCall_ok, hp, ha, hvv, hh, true_and]
    | false =>
      simp only [c, Bool.false_eq_true, if_false, exec, bind_ok, pure_ok, ftTransfer_ok, Prod.mk.injEq, hp, ha,
        hvv, true_and]
      constructor
      · rintro ⟨_, ⟨h1, h2, h3⟩, rfl, rfl⟩; exact ⟨h1, h2, h3, rfl⟩
      · rintro ⟨h1, h2, h3, rfl⟩; exact ⟨_, ⟨h1, h2, h3⟩, rfl, rfl⟩
  constructor
  · constructor
    · rintro ⟨w', s, effs, hx, rfl⟩
      obtain ⟨_, h1, h2, _⟩ := (key s effs).mp hx
      obtain ⟨g1, g2, b, c1, g3, g4, g5, _⟩ := transfer_ok.mp h2
      exact ⟨h1, g1, g2, by simp [contains_eq, g3], by simp [contains_eq, g4], by simp [balanceOf, g3, g5]⟩
    · rintro ⟨h1, h2, h3, h4, h5, h6⟩
      cases hg : w.c.accounts.get who with
      | none => simp [contains_eq, hg] at h4
      | some b =>
        cases hg' : w.c.accounts.get r with
        | none => simp [contains_eq, hg'] at h5
        | some c1 =>
          have hpp := UMap.part_add_part_le_sum w.c.accounts (fun _ b => b) h2
          rw [part_some hg, part_some hg'] at hpp
          have hb : balanceOf w.c who = b := by simp [balanceOf, hg]
          unfold total at hsup
          exact ⟨_, _, _, (key _ _).mpr ⟨by omega, h1, transfer_ok.mpr ⟨h2, h3, b, c1, hg, hg', by omega,
            by omega, by omega, by omega, rfl⟩, rfl⟩, rfl⟩
  · rintro w' ⟨s, effs, hx, rfl⟩
    obtain ⟨_, h1, h2, rfl⟩ := (key s effs).mp hx
    obtain ⟨g1, g2, b, c1, g3, g4, g5, g6, _, _, rfl⟩ := transfer_ok.mp h2
    have g1' : r ≠ who := fun h => g1 h.symm
    refine ⟨?_, ?_, ?_, ?_, ?_⟩
    · simp only [applyCall, mint, burn, balanceOf, UMap.get_insert, if_neg g1', if_true, g3, Option.getD_some]
      omega
    · simp only [applyCall, mint, burn, balanceOf, UMap.get_insert, if_true, g4, Option.getD_some]
    · intro a q1 q2
      simp only [applyCall, mint, burn, UMap.get_insert, if_neg (fun h => q2 h.symm : r ≠ a),
        if_neg (fun h => q1 h.symm : who ≠ a)]
    · simp only [applyCall, mint, burn]; omega
    · cases notify <;> rfl

/-- What the receiver of a transfer-call leaves unused by its answer: everything if it fails or answers no
amount, otherwise its answer, but never more than was sent. -/
def leftover (x : Nat) : PResult → Nat
  | .failed => x
  | .value none => x
  | .value (some v) => min x v

/-- The callback of a transfer-call of `x` from `s` to `r` always succeeds, whatever happened in between.
It takes from `r` what `r` left unused, at most what `r` still has, and gives it to `s`; if `s` is not
registered any more it is burnt instead. Nobody else is touched, no tokens are created. -/
theorem C68_settle {cfg : Cfg} {w0 : World} (h0 : Started cfg w0) (evs : List Ev) (i : Nat) (res : PResult)
    {s r : AccountId} {x : Nat} {result : PResult}
    (hr : (run cfg w0 evs).receipts[i]? = some (.resolve s r x result)) :
    let w := run cfg w0 evs
    let w' := step cfg w (.deliver i res)
    let refund := min (balanceOf w.c r) (leftover x result)
    (∃ c' used, ftResolveTransfer (mkEnv cfg w cfg.self 0 true [result]) w.c s r x = .ok (c', used) ∧
      w'.c = c' ∧ used = if w.c.accounts.contains s = true then x - refund else x) ∧
    balanceOf w'.c r + refund = balanceOf w.c r ∧
    (w.c.accounts.contains s = true → balanceOf w'.c s = balanceOf w.c s + refund ∧
      w'.c.totalSupply = w.c.totalSupply) ∧
    (w.c.accounts.contains s = false → balanceOf w'.c s = 0 ∧
      w'.c.totalSupply + refund = w.c.totalSupply) ∧
    (∀ a, a ≠ s → a ≠ r → w'.c.accounts.get a = w.c.accounts.get a) ∧
    w'.bal = w.bal ∧ w'.receipts = w.receipts.eraseIdx i := by
  intro w w' refund
  have hi : WInv _ _ w := winv_run (started_winv h0).1 evs
  have hr : w.receipts[i]? = some (.resolve s r x result) := hr
  have hok := hi.receipts _ (List.mem_of_getElem? hr)
  have hlo : leftover x result = unusedAmount x result := by
    match result with
    | .failed => rfl
    | .value none => rfl
    | .value (some v) => rfl
  obtain ⟨c', used, burned, h1, h2, h3, h4, h5, h6, h7⟩ := resolve_total hi.state hok.1 (unused_le x result)
  have href : refund = min (balanceOf w.c r) (unusedAmount x result) := by simp only [refund, hlo]
  rw [← href] at h5 h7
  have hw' : w' = { w with c := c', receipts := w.receipts.eraseIdx i } := by
    simp only [w', step, hr, execReceipt, callback_eq h1]
  have e1 := hi.state.supply
  have e2 := h2.supply
  rw [hw']
  refine ⟨⟨c', used, callback_eq h1, rfl, ?_⟩, h5, ?_, ?_, h6, rfl, rfl⟩
  · rcases h7 with ⟨b, g1, g2, g3, g4⟩ | ⟨g1, g2, g3, g4⟩
    · rw [if_pos (by simp [contains_eq, g1])]; omega
    · rw [if_neg (by simp [contains_eq, g1])]; exact g4
  · intro hc
    rcases h7 with ⟨b, g1, g2, g3, g4⟩ | ⟨g1, _⟩
    · refine ⟨by simp [balanceOf, g1, g2], ?_⟩
      simp only; omega
    · simp [contains_eq, g1] at hc
  · intro hc
    rcases h7 with ⟨b, g1, _⟩ | ⟨g1, g2, g3, g4⟩
    · simp [contains_eq, g1] at hc
    · refine ⟨by simp [balanceOf, g2], ?_⟩
      simp only; omega

example : (run demoCfg demo0 demoEvs).receipts[0]? =
    some (.resolve "alice" "dex" 600 (.value (some 500))) := by decide +kernel

/-- Alice unregisters by force while the transfer-call is running: the unused part is burnt. -/
example : let w := run demoCfg demo0 (demoEvs ++ [.call "alice" 1 true (.storageUnregister (some true)),
      .deliver 0 .failed])
    balanceOf w.c "alice" = 0 ∧ balanceOf w.c "dex" = 100 ∧ w.c.totalSupply = 100 := by decide +kernel

/-- A receipt that belongs to a transfer-call of `x` from `s` to `r`. -/
def isOpen (s r : AccountId) (x : Nat) : Receipt → Bool
  | .transfer _ _ => false
  | .onTransfer s' r' x' => s' == s && r' == r && x' == x
  | .resolve s' r' x' _ => s' == s && r' == r && x' == x

/-- Transfer-calls of `x` from `s` to `r` that are running. -/
def running (w : World) (s r : AccountId) (x : Nat) : Nat := w.receipts.countP (isOpen s r x)

/-- Whether the event is an accepted `ft_transfer_call` of `x` to `r` by `s`. -/
def starts (cfg : Cfg) (w : World) (s r : AccountId) (x : Nat) : Ev → Bool
  | .call who att host (.ftTransferCall r' x') =>
    who == s && r' == r && x' == x && decide (who ≠ cfg.self) &&
      (exec (mkEnv cfg w who att host []) w.c (.ftTransferCall r' x')).isOk
  | _ => false

/-- Whether the event is the callback of such a call. -/
def settles (w : World) (s r : AccountId) (x : Nat) : Ev → Bool
  | .deliver i _ =>
    match w.receipts[i]? with
    | some (.resolve s' r' x' _) => s' == s && r' == r && x' == x
    | _ => false
  | _ => false

/-- Number of events of a history with a property. -/
def tally (cfg : Cfg) (p : World → Ev → Bool) : World → List Ev → Nat
  | _, [] => 0
  | w, ev :: t => (p w ev).toNat + tally cfg p (step cfg w ev) t

theorem running_step {cfg : Cfg} (w : World) (s r : AccountId) (x : Nat) (ev : Ev) :
    running (step cfg w ev) s r x + (settles w s r x ev).toNat =
      running w s r x + (starts cfg w s r x ev).toNat := by
  have cb : ∀ b : Bool, (if b = true then 1 else 0) = b.toNat := fun b => by cases b <;> rfl
  cases ev with
  | income n => rfl
  | call who att host c =>
    simp only [settles, Bool.toNat_false, Nat.add_zero]
    by_cases hself : who = cfg.self
    · have : starts cfg w s r x (.call who att host c) = false := by
        cases c <;> simp [starts, hself]
      rw [this]
      simp [step, hself]
    · cases hx : exec (mkEnv cfg w who att host []) w.c c with
      | error m =>
        have : starts cfg w s r x (.call who att host c) = false := by
          cases c <;> simp only [starts]
          rw [hx]; simp [R.isOk]
        rw [this]
        simp [step, hself, hx]
      | ok q =>
        obtain ⟨c', effs⟩ := q
        have hw : (step cfg w (.call who att host c)).receipts = w.receipts ++ effs.map Eff.receipt := by
          simp only [step, if_neg hself, hx, applyCall]
        unfold running
        rw [hw, List.countP_append]
        congr 1
        have transfersOnly : (∀ e ∈ effs, ∃ r x, e = .transfer r x) →
            List.countP (isOpen s r x) (effs.map Eff.receipt) = 0 := by
          intro h
          rw [List.countP_eq_zero]
          intro q hq
          obtain ⟨e, he, rfl⟩ := List.mem_map.mp hq
          obtain ⟨_, _, rfl⟩ := h e he
          simp [Eff.receipt, isOpen]
        have ifT : ∀ n a, ∀ e ∈ (if n > 0 then [Eff.transfer a n] else []), ∃ r x, e = Eff.transfer r x := by
          intro n a e he
          split at he
          · simp only [List.mem_singleton] at he; exact ⟨_, _, he⟩
          · cases he
        have one : ∀ a n, ∀ e ∈ [Eff.transfer a n], ∃ r x, e = Eff.transfer r x := by
          intro a n e he; simp only [List.mem_singleton] at he; exact ⟨_, _, he⟩
        have nil : ∀ e ∈ ([] : List Eff), ∃ r x, e = Eff.transfer r x := fun e he => by cases he
        cases c with
        | nearDeposit =>
          simp only [exec, bind_ok, pure_ok, Prod.mk.injEq] at hx
          obtain ⟨_, _, _, rfl⟩ := hx
          exact transfersOnly nil
        | nearWithdraw x =>
          obtain ⟨_, _, _, _, _, _, _, _, rfl⟩ := nearWithdraw_ok.mp hx
          exact transfersOnly (one _ _)
        | ftTransfer r x =>
          simp only [exec, bind_ok, pure_ok, Prod.mk.injEq] at hx
          obtain ⟨_, _, _, rfl⟩ := hx
          exact transfersOnly nil
        | ftTransferCall r' x' =>
          have hok : (exec (mkEnv cfg w who att host []) w.c (.ftTransferCall r' x')).isOk = true := by
            rw [hx]; rfl
          obtain ⟨_, _, _, _, _, rfl⟩ := ftTransferCall_ok.mp hx
          simp only [starts, hok, List.map_cons, List.map_nil, Eff.receipt, List.countP_cons, List.countP_nil,
            isOpen, Nat.zero_add, ne_eq, hself, not_false_eq_true, decide_true, Bool.and_true]
          exact cb _
        | storageDeposit a =>
          obtain ⟨_, _, ⟨_, _, _, rfl⟩ | ⟨_, _, _, _, rfl⟩⟩ := storageDeposit_ok.mp hx
          · exact transfersOnly (ifT _ _)
          · exact transfersOnly (ifT _ _)
        | storageWithdraw x =>
          simp only [exec, bind_ok, pure_ok, Prod.mk.injEq] at hx
          obtain ⟨_, _, _, rfl⟩ := hx
          exact transfersOnly nil
        | storageUnregister f =>
          simp only [exec, bind_ok, Prod.exists, pure_ok, Prod.mk.injEq] at hx
          obtain ⟨s', effs', v, hx, _, rfl⟩ := hx
          obtain ⟨_, ⟨_, _, _, _, _, _, _, rfl, _⟩ | ⟨_, _, rfl, _⟩⟩ := storageUnregister_ok.mp hx
          · exact transfersOnly (one _ _)
          · exact transfersOnly nil
        | ftResolveTransfer a b c =>
          simp only [exec, bind_ok, Prod.exists] at hx
          obtain ⟨s', u, hx, _⟩ := hx
          exact absurd hx (resolve_call hself)
  | deliver i res =>
    simp only [starts, Bool.toNat_false, Nat.add_zero, step, settles]
    cases hr : w.receipts[i]? with
    | none => rfl
    | some q =>
      have hcount : (w.receipts.eraseIdx i).countP (isOpen s r x) + (isOpen s r x q).toNat =
          w.receipts.countP (isOpen s r x) := by
        obtain ⟨hlt, hget⟩ := List.getElem?_eq_some_iff.mp hr
        have hsplit : w.receipts = w.receipts.take i ++ q :: w.receipts.drop (i + 1) := by
          rw [← hget, List.getElem_cons_drop, List.take_append_drop]
        have herase : w.receipts.eraseIdx i = w.receipts.take i ++ w.receipts.drop (i + 1) :=
          List.eraseIdx_eq_take_drop_succ _ _
        rw [herase]
        conv_rhs => rw [hsplit]
        rw [List.countP_append, List.countP_append, List.countP_cons]
        cases isOpen s r x q
        · simp
        · simp; omega
      match q with
      | .transfer a n =>
        simp only [isOpen, Bool.toNat_false, Nat.add_zero] at hcount
        simp only [execReceipt, Bool.toNat_false, Nat.add_zero]
        split <;> exact hcount
      | .onTransfer s' r' x' =>
        simp only [isOpen] at hcount
        simp only [execReceipt, running, List.countP_append, List.countP_cons, List.countP_nil, isOpen,
          Bool.toNat_false, Nat.add_zero, Nat.zero_add]
        rw [← hcount]
        exact congrArg _ (cb _)
      | .resolve s' r' x' result =>
        simp only [isOpen] at hcount
        simp only [execReceipt]
        split <;> exact hcount

/-- Every accepted `ft_transfer_call` is settled by exactly one callback, and there are no other callbacks:
in every history the accepted calls of `x` from `s` to `r` are as many as those settled together with those
still running. -/
theorem C68_settled_once {cfg : Cfg} {w0 : World} (h0 : Started cfg w0) (evs : List Ev) (s r : AccountId)
    (x : Nat) :
    tally cfg (fun w => starts cfg w s r x) w0 evs =
      tally cfg (fun w => settles w s r x) w0 evs + running (run cfg w0 evs) s r x := by
  have hz : running w0 s r x = 0 := by obtain ⟨_, _, _, _, _, rfl⟩ := h0; rfl
  have gen : ∀ (evs : List Ev) (w : World), running w s r x + tally cfg (fun w => starts cfg w s r x) w evs =
      tally cfg (fun w => settles w s r x) w evs + running (run cfg w evs) s r x := by
    intro evs
    induction evs with
    | nil => intro w; simp [tally, run]
    | cons ev t ih =>
      intro w
      have h1 := ih (step cfg w ev)
      have h2 := running_step (cfg := cfg) w s r x ev
      have h3 : run cfg w (ev :: t) = run cfg (step cfg w ev) t := rfl
      rw [h3]
      simp only [tally]
      omega
  have := gen evs w0
  omega

example : tally demoCfg (fun w => starts demoCfg w "alice" "dex" 600) demo0 demoEvs' = 1 := by decide +kernel
example : tally demoCfg (fun w => settles w "alice" "dex" 600) demo0 demoEvs' = 1 := by decide +kernel

/-! ## C69: registration -/

/-- `storage_deposit` for an account, or for the caller: an account that is registered already gets nothing
and the whole deposit goes back to the caller; a new one is registered with balance zero for exactly the
minimum and the rest goes back. Existing balances are untouched. -/
theorem C69_register {cfg : Cfg} (w : World) (who : AccountId) (att : Nat)
    (hatt : att < two128) (o : Option AccountId) (hv : ∀ a, o = some a → cfg.validAccountId a = true) :
    let who' := o.getD who
    let fee := if w.c.accounts.contains who' = true then 0 else minBalance w.c
    ((∃ w', Accepted cfg w who att (.storageDeposit o) w') ↔ fee ≤ att) ∧
    ∀ w', Accepted cfg w who att (.storageDeposit o) w' →
      w'.c.accounts.contains who' = true ∧
      (∀ a, balanceOf w'.c a = balanceOf w.c a) ∧
      (∀ a, a ≠ who' → w'.c.accounts.get a = w.c.accounts.get a) ∧
      w'.c.totalSupply = w.c.totalSupply ∧
      w'.bal = w.bal + fee ∧
      w'.receipts = w.receipts ++ (if att = fee then [] else [.transfer who (att - fee)]) := by
  intro who' fee
  have key : ∀ s effs, exec (mkEnv cfg w who att true []) w.c (.storageDeposit o) = .ok (s, effs) ↔ _ :=
    fun s effs => storageDeposit_ok
  have hpred : (mkEnv cfg w who att true []).predecessor = who := rfl
  have hatt' : (mkEnv cfg w who att true []).attachedDeposit = att := rfl
  have hbal : (mkEnv cfg w who att true []).accountBalance = w.bal + att := rfl
  have hval : (mkEnv cfg w who att true []).validAccountId = cfg.validAccountId := rfl
  rw [hpred, hatt', hbal, hval] at key
  have rc : ∀ n, n ≤ att → (if n > 0 then [Eff.transfer who n] else []).map Eff.receipt =
      (if n = 0 then [] else [Receipt.transfer who n]) := by
    intro n _
    by_cases h : n = 0
    · subst h; rfl
    · rw [if_pos (by omega), if_neg h]; rfl
  have so : ∀ n, ((if n > 0 then [Eff.transfer who n] else []).map Eff.out).sum = n := by
    intro n; split
    · simp [Eff.out]
    · simp; omega
  cases hg : w.c.accounts.get who' with
  | some b =>
    have hfee : fee = 0 := by simp [fee, contains_eq, hg]
    constructor
    · rw [hfee]
      refine ⟨fun _ => Nat.zero_le _, fun _ => ?_⟩
      exact ⟨_, _, _, (key _ _).mpr ⟨hv, hatt, .inl ⟨⟨b, hg⟩, by omega, rfl, rfl⟩⟩, rfl⟩
    · rintro w' ⟨s, effs, hx, rfl⟩
      obtain ⟨_, _, ⟨_, _, rfl, rfl⟩ | ⟨h1, _⟩⟩ := (key s effs).mp hx
      · rw [hfee]
        refine ⟨by simp [applyCall, contains_eq, hg], fun _ => rfl, fun _ _ => rfl, rfl, ?_, ?_⟩
        · simp only [applyCall, so]; omega
        · simp only [applyCall, rc _ (Nat.le_refl _), Nat.sub_zero]
      · rw [show o.getD who = who' from rfl, hg] at h1; cases h1
  | none =>
    have hfee : fee = minBalance w.c := by simp [fee, contains_eq, hg]
    constructor
    · rw [hfee]
      constructor
      · rintro ⟨w', s, effs, hx, rfl⟩
        obtain ⟨_, _, ⟨⟨b, h1⟩, _⟩ | ⟨_, h2, _⟩⟩ := (key s effs).mp hx
        · rw [show o.getD who = who' from rfl, hg] at h1; cases h1
        · exact h2
      · intro h
        exact ⟨_, _, _, (key _ _).mpr ⟨hv, hatt, .inr ⟨hg, h, by omega, rfl, rfl⟩⟩, rfl⟩
    · rintro w' ⟨s, effs, hx, rfl⟩
      obtain ⟨_, _, ⟨⟨b, h1⟩, _⟩ | ⟨h1, h2, _, rfl, rfl⟩⟩ := (key s effs).mp hx
      · rw [show o.getD who = who' from rfl, hg] at h1; cases h1
      · rw [hfee]
        have other : ∀ a, a ≠ who' → (w.c.accounts.insert (o.getD who) 0).get a = w.c.accounts.get a :=
          fun a ha => UMap.get_insert_ne (fun h => ha h.symm)
        refine ⟨by simp [applyCall, contains_eq, who'], ?_, other, rfl, ?_, ?_⟩
        · intro a
          by_cases ha : a = who'
          · subst ha
            simp [applyCall, balanceOf, hg, who']
          · simp only [applyCall, balanceOf, other a ha]
        · simp only [applyCall, so]; omega
        · simp only [applyCall, rc _ (Nat.sub_le _ _)]
          congr 1
          by_cases h : att = minBalance w.c
          · rw [if_pos h, if_pos (by omega)]
          · rw [if_neg h, if_neg (by omega)]

example : (run demoCfg demo0 demoEvs).c.accounts.contains "dex" = true ∧
    (run demoCfg demo0 demoEvs).c.accounts.contains "eve" = false := by decide +kernel

/-- `storage_unregister` by a registered account, with one yocto attached, is accepted exactly if the
balance is zero or `force` is set; the account is removed, its balance is burnt and the storage minimum goes
back to the owner together with the yocto. Nobody else is touched. -/
theorem C69_unregister {cfg : Cfg} {w0 : World} (h0 : Started cfg w0) (evs : List Ev) (who : AccountId)
    (f : Option Bool) (hreg : (run cfg w0 evs).c.accounts.contains who = true) :
    let w := run cfg w0 evs
    ((∃ w', Accepted cfg w who 1 (.storageUnregister f) w') ↔ balanceOf w.c who = 0 ∨ f = some true) ∧
    ∀ w', Accepted cfg w who 1 (.storageUnregister f) w' →
      w'.c.accounts.contains who = false ∧
      (∀ a, a ≠ who → w'.c.accounts.get a = w.c.accounts.get a) ∧
      w'.c.totalSupply + balanceOf w.c who = w.c.totalSupply ∧
      w'.bal + minBalance w.c = w.bal ∧
      w'.receipts = w.receipts ++ [.transfer who (minBalance w.c + 1)] := by
  intro w
  have hi : WInv _ _ w := winv_run (started_winv h0).1 evs
  have hu : minBalance w.c + 1 < two128 := by
    unfold minBalance
    rw [hi.state.usage]
    have := (started_winv h0).2
    have h2 : storageByteCost < two64 := by decide
    have h3 : storageByteCost * w0.c.accountStorageUsage ≤ (two64 - 1) * (two64 - 1) :=
      Nat.mul_le_mul (by omega) (by omega)
    have h4 : (two64 - 1) * (two64 - 1) + 1 < two128 := by decide
    omega
  have hsup := hi.state.supply
  have hmon := hi.money
  have hmin : minBalance w.c = storageByteCost * w0.c.accountStorageUsage := by
    unfold minBalance; rw [hi.state.usage]
  obtain ⟨b, hg⟩ : ∃ b, w.c.accounts.get who = some b := by
    have : w.c.accounts.contains who = true := hreg
    rw [contains_eq] at this
    exact Option.isSome_iff_exists.mp this
  have hb : balanceOf w.c who = b := by simp [balanceOf, hg]
  have hle := le_total hg
  have hone : 1 ≤ registered w.c := by
    have := UMap.part_le_sum w.c.accounts (fun _ _ => 1) who
    rw [part_some hg] at this
    exact this
  have hk : minBalance w.c ≤ minBalance w.c * registered w.c := Nat.le_mul_of_pos_right _ hone
  rw [← hmin] at hmon
  have hf : f.getD false = true ↔ f = some true := by
    cases f with
    | none => simp
    | some v => simp
  have key : ∀ s effs, exec (mkEnv cfg w who 1 true []) w.c (.storageUnregister f) = .ok (s, effs) ↔
      ∃ v, storageUnregister (mkEnv cfg w who 1 true []) w.c f = .ok (s, effs, v) := by
    intro s effs
    simp only [exec, bind_ok, Prod.exists, pure_ok, Prod.mk.injEq]
    constructor
    · rintro ⟨_, _, v, h, rfl, rfl⟩; exact ⟨v, h⟩
    · rintro ⟨v, h⟩; exact ⟨_, _, v, h, rfl, rfl⟩
  have hpred : (mkEnv cfg w who 1 true []).predecessor = who := rfl
  rw [hb]
  constructor
  · constructor
    · rintro ⟨w', s, effs, hx, rfl⟩
      obtain ⟨v, hx⟩ := (key s effs).mp hx
      obtain ⟨_, ⟨b', h2, h3, _⟩ | ⟨h2, _⟩⟩ := storageUnregister_ok.mp hx
      · rw [hpred, hg] at h2; cases h2
        exact h3.imp id hf.mp
      · rw [hpred, hg] at h2; cases h2
    · intro h
      refine ⟨_, _, _, (key _ _).mpr ⟨true, storageUnregister_ok.mpr ⟨rfl, .inl ⟨b, hg, h.imp id hf.mpr, by omega,
        hu, ?_, rfl, rfl, rfl⟩⟩⟩, rfl⟩
      show _ ≤ w.bal + 1
      omega
  · rintro w' ⟨s, effs, hx, rfl⟩
    obtain ⟨v, hx⟩ := (key s effs).mp hx
    obtain ⟨_, ⟨b', h2, _, _, _, _, rfl, rfl, _⟩ | ⟨h2, _⟩⟩ := storageUnregister_ok.mp hx
    · rw [hpred, hg] at h2; cases h2
      refine ⟨by simp [applyCall, contains_eq, mkEnv], ?_, ?_, ?_, rfl⟩
      · intro a ha
        exact UMap.get_remove_ne (fun h => ha h.symm)
      · simp only [applyCall]; omega
      · simp only [applyCall, List.map_cons, List.map_nil, List.sum_cons, List.sum_nil, Eff.out]; omega
    · rw [hpred, hg] at h2; cases h2

example : (run demoCfg demo0 demoEvs').c.accounts.contains "alice" = true := by decide +kernel

/-- `storage_balance_of` reports an account exactly if it is registered: the minimum, of which nothing can be
withdrawn. Accordingly `storage_withdraw` is accepted exactly from registered accounts with one yocto, for
no amount or the amount 0; it pays nothing and changes nothing, the yocto stays in the contract. -/
theorem C69_storage_withdraw {cfg : Cfg} (w : World) (who : AccountId) (att : Nat) (x : Option Nat) :
    (∀ a r, storageBalanceOf w.c a = some r ↔ w.c.accounts.contains a = true ∧ r = (minBalance w.c, 0)) ∧
    ((∃ w', Accepted cfg w who att (.storageWithdraw x) w') ↔
      att = 1 ∧ storageBalanceOf w.c who ≠ none ∧ (x = none ∨ x = some 0)) ∧
    ∀ w', Accepted cfg w who att (.storageWithdraw x) w' → w' = { w with bal := w.bal + 1 } := by
  have hv : ∀ a r, storageBalanceOf w.c a = some r ↔
      w.c.accounts.contains a = true ∧ r = (minBalance w.c, 0) := by
    intro a r
    unfold storageBalanceOf
    split
    · rename_i h
      simp only [h, true_and, Option.some.injEq]
      exact eq_comm
    · rename_i h
      constructor
      · intro h'; cases h'
      · rintro ⟨h', _⟩; exact absurd h' h
  have hn : storageBalanceOf w.c who ≠ none ↔ w.c.accounts.contains who = true := by
    unfold storageBalanceOf
    split
    · rename_i h; simp [h]
    · rename_i h; simp [h]
  have hx : x.getD 0 = 0 ↔ x = none ∨ x = some 0 := by cases x <;> simp
  rw [hn, ← hx]
  refine ⟨hv, ?_, ?_⟩
  · simp only [Accepted, exec, storageWithdraw, assertOneYocto, bind_ok, require_ok, pure_ok, Prod.mk.injEq]
    constructor
    · rintro ⟨_, _, _, ⟨_, ⟨_, h1, _, h2, _, h3, _⟩, _⟩, _⟩
      exact ⟨h1, h2, h3⟩
    · rintro ⟨h1, h2, h3⟩
      exact ⟨_, _, _, ⟨_, ⟨(), h1, (), h2, (), h3, rfl⟩, rfl, rfl⟩, rfl⟩
  · simp only [Accepted, exec, storageWithdraw, assertOneYocto, bind_ok, require_ok, pure_ok, Prod.mk.injEq]
    rintro w' ⟨_, _, ⟨_, ⟨_, h1, _, _, _, _, rfl⟩, rfl, rfl⟩, rfl⟩
    have h1' : att = 1 := h1
    subst h1'
    simp [applyCall]

/-- `storage_unregister` by an account that is not registered is accepted with one yocto, whatever `force`
is, and changes nothing; the yocto stays in the contract. -/
theorem C69_unregister_unknown {cfg : Cfg} (w : World) (who : AccountId) (f : Option Bool)
    (hno : w.c.accounts.contains who = false) (w' : World) :
    Accepted cfg w who 1 (.storageUnregister f) w' ↔ w' = { w with bal := w.bal + 1 } := by
  have hg : w.c.accounts.get who = none := by
    rw [contains_eq] at hno
    cases h : w.c.accounts.get who with
    | none => rfl
    | some b => rw [h] at hno; cases hno
  have hx : exec (mkEnv cfg w who 1 true []) w.c (.storageUnregister f) = .ok (w.c, []) := by
    have : storageUnregister (mkEnv cfg w who 1 true []) w.c f = .ok (w.c, [], false) := by
      unfold storageUnregister
      have : (mkEnv cfg w who 1 true []).predecessor = who := rfl
      simp only [bind_ok, this, hg, pure_ok]
      exact ⟨(), require_ok.mpr rfl, trivial⟩
    simp only [exec, bind_ok, this]
    exact ⟨_, rfl, rfl⟩
  constructor
  · rintro ⟨s, effs, h, rfl⟩
    rw [hx] at h
    cases h
    simp [applyCall]
  · rintro rfl
    exact ⟨_, _, hx, by simp [applyCall]⟩

example : storageBalanceOf (run demoCfg demo0 demoEvs').c "alice" ≠ none ∧
    (run demoCfg demo0 demoEvs').c.accounts.contains "stranger" = false := by decide +kernel

end Verif.WNear
