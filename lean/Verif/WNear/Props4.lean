import Verif.WNear.Props3

/-!
# Wrapped NEAR: nobody gets more out than was put in for them (C121)
-/

namespace Verif.WNear

open Verif

/-! ## Specification -/

/-- What a receipt may still bring to `a`: a payment, or the unused part of a transfer-call of `a`. -/
def arriving (a : AccountId) : Receipt → Nat
  | .transfer r x => if r = a then x else 0
  | .onTransfer s _ x => if s = a then x else 0
  | .resolve s _ x _ => if s = a then x else 0

/-- The tokens and the storage deposit of `a` in the contract. -/
def worth (s : State) (a : AccountId) : Nat :=
  balanceOf s a + if s.accounts.contains a = true then minBalance s else 0

/-- Everything `a` has got from the contract, can still get from receipts on their way, and has in it. -/
def holdings (w : World) (a : AccountId) : Nat :=
  w.paid a + (w.receipts.map (arriving a)).sum + worth w.c a

/-- What a call of `who` with the deposit `att` puts in for `a`, if it is accepted: its own deposit if `a` calls
itself; otherwise the tokens sent to `a`, or the storage deposit if `a` gets registered. -/
def putIn (w : World) (a who : AccountId) (att : Nat) (c : Call) : Nat :=
  if who = a then att
  else match c with
    | .ftTransfer r x => if r = a then x else 0
    | .ftTransferCall r x => if r = a then x else 0
    | .storageDeposit (some r) => if r = a ∧ w.c.accounts.contains a = false then minBalance w.c else 0
    | _ => 0

/-- What all accepted calls of a history put in for `a`. -/
def putInBy (cfg : Cfg) (a : AccountId) : World → List Ev → Nat
  | _, [] => 0
  | w, ev :: t =>
    (match ev with
      | .call who att host c =>
        if who ≠ cfg.self ∧ (exec (mkEnv cfg w who att host []) w.c c).isOk = true then putIn w a who att c else 0
      | _ => 0) + putInBy cfg a (step cfg w ev) t

/-! ## Helper lemmas -/

theorem worth_some {s : State} {a : AccountId} {b : Nat} (h : s.accounts.get a = some b) :
    worth s a = b + minBalance s := by simp [worth, balanceOf, contains_eq, h]

theorem worth_none {s : State} {a : AccountId} (h : s.accounts.get a = none) : worth s a = 0 := by
  simp [worth, balanceOf, contains_eq, h]

theorem worth_same {s s' : State} {a : AccountId} (h : s'.accounts.get a = s.accounts.get a)
    (hu : s'.accountStorageUsage = s.accountStorageUsage) : worth s' a = worth s a := by
  simp only [worth, balanceOf, contains_eq, minBalance, h, hu]
  rfl

theorem le_same {s s' : State} {a : AccountId} {p q : Nat} (h : s'.accounts.get a = s.accounts.get a)
    (hu : s'.accountStorageUsage = s.accountStorageUsage) (hpq : p ≤ q) : worth s' a + p ≤ worth s a + q := by
  rw [worth_same h hu]; omega

/-- A transfer. -/
theorem worth_transfer {s s' : State} {who r a : AccountId} {x : Nat} (h : internalTransfer s who r x = .ok s') :
    worth s' a + (if who = a then x else 0) = worth s a + (if r = a then x else 0) := by
  obtain ⟨h1, h2, b, c, h3, h4, h5, h6, h7, h8, rfl⟩ := transfer_ok.mp h
  have hm : minBalance (mint (burn s who b x) r c x) = minBalance s := rfl
  by_cases hr : r = a
  · subst hr
    have : (mint (burn s who b x) r c x).accounts.get r = some (c + x) := by simp [mint]
    rw [worth_some this, worth_some h4, if_neg h1, if_pos rfl, hm]; omega
  · by_cases hw : who = a
    · subst hw
      have : (mint (burn s who b x) r c x).accounts.get who = some (b - x) := by
        simp only [mint, burn, UMap.get_insert, if_neg hr, if_true]
      rw [worth_some this, worth_some h3, if_neg hr, if_pos rfl, hm]; omega
    · have : (mint (burn s who b x) r c x).accounts.get a = s.accounts.get a := by
        simp only [mint, burn, UMap.get_insert, if_neg hr, if_neg hw]
      rw [worth_same this rfl, if_neg hr, if_neg hw]

/-- An accepted call. -/
theorem worth_call {cfg : Cfg} {w : World} {who a : AccountId} {att : Nat} {host : Bool} {c : Call} {s : State}
    {effs : List Eff} (hself : who ≠ cfg.self)
    (hx : exec (mkEnv cfg w who att host []) w.c c = .ok (s, effs)) :
    worth s a + ((effs.map Eff.receipt).map (arriving a)).sum ≤ worth w.c a + putIn w a who att c := by
  have hp : (mkEnv cfg w who att host []).predecessor = who := rfl
  have ha : (mkEnv cfg w who att host []).attachedDeposit = att := rfl
  have pays : ∀ n, (((if n > 0 then [Eff.transfer who n] else []).map Eff.receipt).map (arriving a)).sum =
      if who = a then n else 0 := by
    intro n
    by_cases hn : n > 0
    · rw [if_pos hn]; simp [Eff.receipt, arriving]
    · rw [if_neg hn]; have : n = 0 := by omega
      subst this; simp
  cases c with
  | nearDeposit =>
    simp only [exec, bind_ok, pure_ok, Prod.mk.injEq] at hx
    obtain ⟨s', hx, rfl, rfl⟩ := hx
    obtain ⟨_, _, h⟩ := nearDeposit_ok.mp hx
    rw [hp, ha] at h
    simp only [List.map_nil, List.sum_nil, Nat.add_zero]
    by_cases hw : who = a
    · subst hw
      simp only [putIn, if_true]
      rcases h with ⟨b, h1, _, _, rfl⟩ | ⟨h1, h2, _, rfl⟩
      · have : (mint w.c who b att).accounts.get who = some (b + att) := by simp [mint]
        rw [worth_some this, worth_some h1]; simp only [minBalance, mint]; omega
      · rw [worth_none h1, worth_some (b := 0 + (att - minBalance w.c)) (by simp [mint])]
        simp only [minBalance, mint] at h2 ⊢; omega
    · rcases h with ⟨b, h1, _, _, rfl⟩ | ⟨h1, h2, _, rfl⟩
      · exact le_same (p := 0) (by simp only [mint, UMap.get_insert, if_neg hw]) rfl (Nat.zero_le _)
      · exact le_same (p := 0) (by simp only [mint, UMap.get_insert, if_neg hw]) rfl (Nat.zero_le _)
  | nearWithdraw x =>
    obtain ⟨h0, b, h1, h2, _, _, _, rfl, rfl⟩ := nearWithdraw_ok.mp hx
    rw [hp] at h1; rw [ha] at h0
    simp only [hp, List.map_cons, List.map_nil, Eff.receipt, arriving, List.sum_cons, List.sum_nil, Nat.add_zero]
    by_cases hw : who = a
    · subst hw
      rw [worth_some (b := b - x) (by simp [burn]), worth_some h1]
      simp only [putIn, if_true, minBalance, burn]; omega
    · rw [if_neg hw]
      exact le_same (by simp only [burn, UMap.get_insert, if_neg hw]) rfl (Nat.zero_le _)
  | ftTransfer r x =>
    simp only [exec, bind_ok, pure_ok, Prod.mk.injEq] at hx
    obtain ⟨s', hx, rfl, rfl⟩ := hx
    have h := (ftTransfer_ok.mp hx).2.2.2
    have ht := worth_transfer (a := a) h
    have hne := (transfer_ok.mp h).1
    rw [hp] at ht hne
    simp only [List.map_nil, List.sum_nil, Nat.add_zero, putIn]
    by_cases hw : who = a
    · subst hw
      rw [if_pos rfl, if_neg (Ne.symm hne)] at ht
      omega
    · rw [if_neg hw] at ht ⊢
      omega
  | ftTransferCall r x =>
    obtain ⟨_, _, _, h, _, rfl⟩ := ftTransferCall_ok.mp hx
    have ht := worth_transfer (a := a) h
    have hne := (transfer_ok.mp h).1
    rw [hp] at ht hne
    simp only [hp, List.map_cons, List.map_nil, Eff.receipt, arriving, List.sum_cons, List.sum_nil, Nat.add_zero, putIn]
    by_cases hw : who = a
    · subst hw
      rw [if_pos rfl, if_neg (Ne.symm hne)] at ht
      rw [if_pos rfl, if_pos rfl]
      omega
    · rw [if_neg hw] at ht ⊢
      rw [if_neg hw]
      omega
  | storageDeposit o =>
    obtain ⟨_, _, h⟩ := storageDeposit_ok.mp hx
    rw [hp, ha] at h
    rcases h with ⟨_, _, rfl, rfl⟩ | ⟨h1, h2, _, rfl, rfl⟩
    · rw [pays]
      by_cases hw : who = a
      · rw [if_pos hw]; simp only [putIn, if_pos hw]; omega
      · rw [if_neg hw]; omega
    · rw [pays]
      by_cases ht : o.getD who = a
      · rw [ht] at h1 ⊢
        rw [worth_none h1, worth_some (b := 0) (by simp)]
        by_cases hw : who = a
        · simp only [if_pos hw, putIn, minBalance] at h2 ⊢; omega
        · have h1' : w.c.accounts.contains a = false := by rw [contains_eq, h1]; rfl
          cases o with
          | none => exact absurd ht hw
          | some r =>
            have hr : r = a := ht
            simp only [if_neg hw, putIn]
            rw [if_pos ⟨hr, h1'⟩]
            simp only [minBalance]; omega
      · refine le_same (by simp only [UMap.get_insert, if_neg ht]) rfl ?_
        by_cases hw : who = a
        · simp only [if_pos hw, putIn]; omega
        · rw [if_neg hw]; omega
  | storageWithdraw x =>
    simp only [exec, bind_ok, pure_ok, Prod.mk.injEq, storageWithdraw, assertOneYocto, require_ok] at hx
    obtain ⟨s', ⟨_, _, _, _, _, _, rfl⟩, rfl, rfl⟩ := hx
    simp only [List.map_nil, List.sum_nil]; omega
  | storageUnregister f =>
    simp only [exec, bind_ok, Prod.exists, pure_ok, Prod.mk.injEq] at hx
    obtain ⟨s', effs', v, hx, rfl, rfl⟩ := hx
    obtain ⟨h0, h⟩ := storageUnregister_ok.mp hx
    rw [hp] at h; rw [ha] at h0
    rcases h with ⟨b, h1, _, _, _, _, rfl, rfl, _⟩ | ⟨_, rfl, rfl, _⟩
    · simp only [List.map_cons, List.map_nil, Eff.receipt, arriving, List.sum_cons, List.sum_nil, Nat.add_zero]
      by_cases hw : who = a
      · subst hw
        rw [worth_none (by simp), worth_some h1, if_pos rfl]
        simp only [putIn, if_true]; omega
      · rw [if_neg hw]
        exact le_same (UMap.get_remove_ne hw) rfl (Nat.zero_le _)
    · simp only [List.map_nil, List.sum_nil]; omega
  | ftResolveTransfer x y z =>
    simp only [exec, bind_ok, Prod.exists] at hx
    obtain ⟨s', u, hx, _⟩ := hx
    exact absurd hx (resolve_call hself)

/-- The callback registers and unregisters nobody. -/
theorem resolve_registered {s s' : State} {a r : AccountId} {x u used burned : Nat}
    (h : resolve s a r x u = .ok (s', used, burned)) (o : AccountId) :
    s'.accounts.contains o = s.accounts.contains o ∧ s'.accountStorageUsage = s.accountStorageUsage := by
  unfold resolve at h
  split at h
  · rename_i hc
    obtain ⟨b, hb⟩ : ∃ b, s.accounts.get r = some b := by
      cases hg : s.accounts.get r with
      | none => simp [balanceOf, hg] at hc
      | some b => exact ⟨b, rfl⟩
    simp only [bind_ok] at h
    obtain ⟨rb, _, h⟩ := h
    have hr : ∀ v, (s.accounts.insert r v).contains o = s.accounts.contains o := by
      intro v
      simp only [contains_eq, UMap.get_insert]
      split
      · rename_i he; rw [← he, hb]; rfl
      · rfl
    split at h
    · rename_i sb hs
      simp only [bind_ok, pure_ok, Prod.mk.injEq] at h
      obtain ⟨_, _, _, _, rfl, _⟩ := h
      refine ⟨?_, rfl⟩
      simp only [contains_eq] at hr ⊢
      rw [UMap.get_insert]
      split
      · rename_i he
        rw [← hr rb, ← he]
        rw [hs]; rfl
      · exact hr rb
    · simp only [bind_ok, pure_ok, Prod.mk.injEq] at h
      obtain ⟨_, _, rfl, _⟩ := h
      exact ⟨hr rb, rfl⟩
  · simp only [pure_ok, Prod.mk.injEq] at h
    obtain ⟨rfl, _⟩ := h
    exact ⟨rfl, rfl⟩

/-- One event. -/
theorem holdings_step {cfg : Cfg} {w0 : World} (h0 : Started cfg w0) (evs : List Ev) (ev : Ev) (a : AccountId) :
    let w := run cfg w0 evs
    holdings (step cfg w ev) a ≤ holdings w a + putInBy cfg a w [ev] := by
  intro w
  cases ev with
  | income n => exact Nat.le_refl _
  | call who att host c =>
    by_cases hself : who = cfg.self
    · simp only [step, if_pos hself]; omega
    · cases hx : exec (mkEnv cfg w who att host []) w.c c with
      | error m => simp only [step, if_neg hself, hx]; omega
      | ok q =>
        obtain ⟨s, effs⟩ := q
        have := worth_call (a := a) hself hx
        have hp : putInBy cfg a w [.call who att host c] = putIn w a who att c := by
          simp only [putInBy, hx, Nat.add_zero]
          rw [if_pos ⟨hself, rfl⟩]
        rw [hp]
        simp only [step, if_neg hself, hx, applyCall, holdings, List.map_append, List.sum_append]
        omega
  | deliver i res =>
    cases hr : w.receipts[i]? with
    | none => simp only [step, hr]; omega
    | some q =>
      have hsum := sum_erase (arriving a) hr
      refine Nat.le_trans ?_ (Nat.le_add_right _ _)
      match q, hr, hsum with
      | .transfer r x, hr, hsum =>
        simp only [arriving] at hsum
        simp only [step, hr, execReceipt]
        by_cases hres : res = .failed
        · rw [if_pos hres]; simp only [holdings]; omega
        · rw [if_neg hres]
          simp only [holdings]
          by_cases hra : a = r
          · rw [if_pos hra]; rw [if_pos hra.symm] at hsum; omega
          · rw [if_neg hra]; omega
      | .onTransfer s r x, hr, hsum =>
        simp only [arriving] at hsum
        simp only [step, hr, execReceipt, holdings, List.map_append, List.sum_append, List.map_cons, List.map_nil,
          List.sum_cons, List.sum_nil, arriving]
        omega
      | .resolve s r x result, hr, hsum =>
        have hi : WInv _ _ w := winv_run (started_winv h0).1 evs
        have hok := hi.receipts _ (List.mem_of_getElem? hr)
        obtain ⟨c', used, burned, h1, h2, h3, h4, h5, h6, h7⟩ := resolve_total hi.state hok.1 (unused_le x result)
        have hle := unused_le x result
        have hw' : step cfg w (.deliver i res) = { w with c := c', receipts := w.receipts.eraseIdx i } := by
          simp only [step, hr, execReceipt, callback_eq h1]
        obtain ⟨k1, k2⟩ := resolve_registered h1 a
        rw [hw']
        simp only [arriving] at hsum
        simp only [holdings, worth, k1, minBalance, k2]
        have hbal : balanceOf c' a ≤ balanceOf w.c a + (if s = a then x else 0) := by
          by_cases hs : s = a
          · subst hs
            rw [if_pos rfl]
            rcases h7 with ⟨b, g1, g2, _⟩ | ⟨g1, g2, _⟩
            · simp only [balanceOf, g1, g2, Option.getD_some] at *; omega
            · simp [balanceOf, g2]
          · by_cases har : a = r
            · subst har; omega
            · have : balanceOf c' a = balanceOf w.c a := balance_of_get (h6 a (Ne.symm hs) har)
              omega
        omega

/-! ## Property theorems -/

/-- **C121 (no profit).** Whatever happens, in any history: what an account has got from the contract, can still get
from receipts on their way, and has in it, together is at most what it had so before and what accepted calls put in
for it since: its own deposits, tokens others sent to it, its storage deposit if others paid it. -/
theorem C121_no_profit {cfg : Cfg} {w0 : World} (h0 : Started cfg w0) (evs later : List Ev) (a : AccountId) :
    let w := run cfg w0 evs
    holdings (run cfg w later) a ≤ holdings w a + putInBy cfg a w later := by
  induction later generalizing evs with
  | nil => exact Nat.le_add_right _ _
  | cons ev l ih =>
    intro w
    have hw : run cfg w0 (evs ++ [ev]) = step cfg w ev := by rw [run_app]; rfl
    have k1 : holdings (step cfg w ev) a ≤ holdings w a + putInBy cfg a w [ev] := holdings_step h0 evs ev a
    have k2 := ih (evs ++ [ev])
    rw [hw] at k2
    have k2 : holdings (run cfg w (ev :: l)) a ≤ holdings (step cfg w ev) a + putInBy cfg a (step cfg w ev) l := k2
    simp only [putInBy, Nat.add_zero] at k1 ⊢
    omega

/-- **C121 (from the beginning).** An account never gets more NEAR out of the contract than its own deposits, the
wrapped tokens others sent to it and the storage deposits others paid for it. -/
theorem C121_paid_at_most {cfg : Cfg} {w0 : World} (h0 : Started cfg w0) (evs : List Ev) (a : AccountId) :
    (run cfg w0 evs).paid a + worth (run cfg w0 evs).c a ≤ putInBy cfg a w0 evs := by
  have h := C121_no_profit h0 [] evs a
  simp only [run, List.foldl_nil] at h
  have hz : holdings w0 a = 0 := by
    obtain ⟨who, usage, s, bal, hn, rfl⟩ := h0
    simp only [new, bind_ok, pure_ok] at hn
    obtain ⟨_, _, _, _, _, _, rfl⟩ := hn
    rfl
  rw [hz] at h
  simp only [holdings] at h
  simp only [run]
  omega

/-- Alice wraps 1000, sends 600 with a transfer-call of which 100 are used, unwraps the 900 that are left and
unregisters. -/
example :
    let evs := demoEvs' ++ [.call "alice" 1 true (.nearWithdraw 900), .call "alice" 1 true (.storageUnregister none),
      .deliver 0 (.value none), .deliver 0 (.value none)]
    let w := run demoCfg demo0 evs
    w.paid "alice" = 902 + demoMin ∧ putInBy demoCfg "alice" demo0 evs = 1003 + demoMin ∧
    worth w.c "dex" = 100 + demoMin ∧ putInBy demoCfg "dex" demo0 evs = 600 + demoMin := by
  decide +kernel

/-- The bound is reached: Bob wraps, registers Carol and sends tokens, which Carol unwraps. -/
example :
    let evs := [.call "bob" (demoMin + 10) true .nearDeposit, .call "bob" demoMin true (.storageDeposit (some "carol")),
      .call "bob" 1 true (.ftTransfer "carol" 4), .call "carol" 1 true (.nearWithdraw 4), .deliver 0 (.value none)]
    let w := run demoCfg demo0 evs
    w.paid "carol" = 5 ∧ worth w.c "carol" = demoMin ∧ putInBy demoCfg "carol" demo0 evs = demoMin + 5 := by
  decide +kernel

end Verif.WNear
