import Verif.Factory.MultisigF
import Verif.Factory.PoolLemmas
import Verif.Multisig2.Lemmas

/-!
# Multisig factory: property theorems (C55)

C55 says that the caller gets the deposit back when the creation fails. The code does not do this: the
creation is a batch without a callback, so the runtime returns the deposit to the factory, and the
factory has no method that could ever send it on (`C55_refuted`, `C55_never_returned`). What does hold is
in the `_partial` theorems: a call that is rejected immediately costs nothing, a creation that succeeds
puts exactly the deposit on the new account, exactly which creations succeed, and the ledger.
-/

namespace Verif.MultisigFactory

open Verif Verif.Factory

/-! ## Vocabulary -/

/-- Total deposit of creations in flight whose caller satisfies `p`. -/
def pendingOf (w : World) (p : AccountId → Bool) : Nat :=
  ((w.receipts.filter (fun r => p r.caller)).map (fun r => r.batch.deposit)).sum

/-- Total deposit of the accounts created for callers that satisfy `p`. -/
def onAccounts (w : World) (p : AccountId → Bool) : Nat :=
  (((w.accounts.entries.map Prod.snd).filter (fun acc => p acc.caller)).map (fun acc => acc.deposit)).sum

/-- Deposits of creations that fail in the history `evs` from `w`, for callers that satisfy `p`: the
creation is executed, but the account is not created by it. -/
def failed (cfg : Cfg) (p : AccountId → Bool) (w : World) : List Ev → Nat
  | [] => 0
  | ev :: t =>
    (match ev with
      | .deliver i ok =>
        match w.receipts[i]? with
        | some r =>
          if p r.caller = true ∧
              (if ok then deploy cfg { w with receipts := w.receipts.eraseIdx i } r else none).isNone = true
          then r.batch.deposit else 0
        | none => 0
      | _ => 0) + failed cfg p (step cfg w ev) t

/-! ## Helper lemmas -/

theorem create_ok {cfg : Cfg} {who : AccountId} {att gas : Nat} {hostOk : Bool} {name : AccountId}
    {ms : List Multisig2.Member} {n : Nat} {b : Batch} :
    create (mkEnv cfg who att gas hostOk) name ms n = .ok b ↔
      n < two64 ∧ att < two128 ∧ cfg.validAccountId (subAccount name cfg.self) = true ∧
      createCallGas ≤ gas ∧ hostOk = true ∧
      b = ⟨subAccount name cfg.self, .multisig2, att, ms, n, gas - createCallGas⟩ := by
  unfold create
  generalize createCallGas = cg
  simp only [bind_ok, require_ok, subU_ok, pure_ok]
  constructor
  · rintro ⟨_, h1, _, h2, _, h3, g, ⟨h4, rfl⟩, _, h5, rfl⟩
    exact ⟨h1, h2, h3, h4, h5, rfl⟩
  · rintro ⟨h1, h2, h3, h4, h5, rfl⟩
    exact ⟨(), h1, (), h2, (), h3, _, ⟨h4, rfl⟩, (), h5, rfl⟩

/-- Sum over the receipts in flight. -/
def rsum (f : Receipt → Nat) (l : List Receipt) : Nat := (l.map f).sum

theorem rsum_eraseIdx (f : Receipt → Nat) {l : List Receipt} {i : Nat} {r : Receipt}
    (h : l[i]? = some r) : rsum f (l.eraseIdx i) + f r = rsum f l := by
  induction l generalizing i with
  | nil => simp at h
  | cons x t ih =>
    cases i with
    | zero => simp at h; subst h; simp [rsum]; omega
    | succ i =>
      simp only [List.getElem?_cons_succ] at h
      have := ih h
      simp only [List.eraseIdx_cons_succ, rsum, List.map_cons, List.sum_cons] at this ⊢
      omega

theorem pendingOf_eq (w : World) (p : AccountId → Bool) :
    pendingOf w p = rsum (fun r => if p r.caller then r.batch.deposit else 0) w.receipts := by
  unfold pendingOf rsum
  induction w.receipts with
  | nil => rfl
  | cons r t ih =>
    by_cases h : p r.caller = true
    · simp [h, ih]
    · simp [h, ih]

theorem onAccounts_eq (w : World) (p : AccountId → Bool) :
    onAccounts w p = w.accounts.sum (fun _ acc => if p acc.caller then acc.deposit else 0) := by
  unfold onAccounts UMap.sum
  induction w.accounts.entries with
  | nil => rfl
  | cons r t ih =>
    by_cases h : p r.2.caller = true
    · simp [h, ih]
    · simp [h, ih]

theorem deploy_some {cfg : Cfg} {w : World} {r : Receipt} {acc : Created} (h : deploy cfg w r = some acc) :
    directSub cfg.self r.batch.receiver = true ∧ cfg.existing r.batch.receiver = false ∧
    w.accounts.contains r.batch.receiver = false ∧ r.batch.members.all cfg.readable = true ∧
    acc.code = r.batch.code ∧ acc.deposit = r.batch.deposit ∧ acc.caller = r.caller ∧
    acc.multisig.now = w.now ∧
    ∃ c b, Multisig2.new ⟨r.batch.receiver, cfg.self, r.pk, 0, w.now, true⟩ false r.batch.members
      r.batch.numConfirmations = .ok (c, b) ∧ acc.multisig = ⟨c, w.now, []⟩ ∧ acc.keys = b := by
  unfold deploy at h
  split at h
  · rename_i hc
    split at h
    · rename_i c b hn
      cases h
      exact ⟨hc.1, hc.2.1, hc.2.2.1, hc.2.2.2, rfl, rfl, rfl, rfl, c, b, hn, rfl, rfl⟩
    · cases h
  · cases h

/-- When the batch succeeds. -/
theorem deploy_iff {cfg : Cfg} {w : World} {r : Receipt} :
    (∃ acc, deploy cfg w r = some acc) ↔
      directSub cfg.self r.batch.receiver = true ∧ cfg.existing r.batch.receiver = false ∧
      w.accounts.contains r.batch.receiver = false ∧ r.batch.members.all cfg.readable = true ∧
      r.batch.numConfirmations < two32 ∧ r.batch.numConfirmations ≤ r.batch.members.length := by
  constructor
  · rintro ⟨acc, h⟩
    obtain ⟨h1, h2, h3, h4, _, _, _, _, c, b, hn, _⟩ := deploy_some h
    obtain ⟨_, h5, _, h6, _⟩ := Multisig2.new_ok.mp hn
    exact ⟨h1, h2, h3, h4, h5, h6⟩
  · rintro ⟨h1, h2, h3, h4, h5, h6⟩
    unfold deploy
    rw [if_pos ⟨h1, h2, h3, h4⟩]
    rw [Multisig2.new_ok.mpr ⟨rfl, h5, rfl, h6, rfl, rfl⟩]
    exact ⟨_, rfl⟩

/-- What holds of the receipts in flight. -/
def ReceiptOk (cfg : Cfg) (r : Receipt) : Prop :=
  r.batch.code = .multisig2 ∧ r.batch.deposit < two128 ∧
  ∃ name, r.batch.receiver = subAccount name cfg.self

theorem receipts_step {cfg : Cfg} {w : World} (h : ∀ r ∈ w.receipts, ReceiptOk cfg r) (ev : Ev) :
    ∀ r ∈ (step cfg w ev).receipts, ReceiptOk cfg r := by
  cases ev with
  | create who pk att gas hostOk name ms n =>
    simp only [step]
    split
    · cases hx : create (mkEnv cfg who att gas hostOk) name ms n with
      | error m => exact h
      | ok b =>
        intro r hr
        rcases List.mem_append.mp hr with hr | hr
        · exact h r hr
        · simp only [List.mem_singleton] at hr
          subst hr
          obtain ⟨_, h2, _, _, _, rfl⟩ := create_ok.mp hx
          exact ⟨rfl, h2, name, rfl⟩
    · exact h
  | deliver i ok =>
    simp only [step]
    split
    · intro r hr
      simp only [execReceipt] at hr
      split at hr
      · exact h r (List.mem_of_mem_eraseIdx hr)
      · exact h r (List.mem_of_mem_eraseIdx hr)
    · exact h
  | income n => exact h
  | earn who n => simp only [step]; split <;> exact h
  | tick dt => exact h

theorem receipts_run {cfg : Cfg} {w : World} (h : ∀ r ∈ w.receipts, ReceiptOk cfg r) (evs : List Ev) :
    ∀ r ∈ (run cfg w evs).receipts, ReceiptOk cfg r := by
  unfold run
  induction evs generalizing w with
  | nil => exact h
  | cons ev t ih => exact ih (receipts_step h ev)

/-- Fate of a receipt, for the ledgers. -/
theorem exec_ledger (cfg : Cfg) (p : AccountId → Bool) (w : World) {i : Nat} {r : Receipt}
    (hr : w.receipts[i]? = some r) (ok : Bool) :
    let w' := step cfg w (.deliver i ok)
    let lost := if p r.caller = true ∧
      (if ok then deploy cfg { w with receipts := w.receipts.eraseIdx i } r else none).isNone = true
      then r.batch.deposit else 0
    onAccounts w' p + pendingOf w' p + lost = onAccounts w p + pendingOf w p := by
  have he := rsum_eraseIdx (fun r => if p r.caller then r.batch.deposit else 0) hr
  intro w' lost
  simp only [w', lost]
  rw [onAccounts_eq, onAccounts_eq, pendingOf_eq, pendingOf_eq]
  simp only [step, hr, execReceipt]
  cases hd : (if ok then deploy cfg { w with receipts := w.receipts.eraseIdx i } r else none) with
  | none =>
    simp only [Option.isNone_none, and_true]
    omega
  | some acc =>
    have hd' : deploy cfg { w with receipts := w.receipts.eraseIdx i } r = some acc := by
      cases ok with
      | true => exact hd
      | false => cases hd
    obtain ⟨_, _, g3, _, _, g6, g7, _⟩ := deploy_some hd'
    have h3 := UMap.sum_insert w.accounts r.batch.receiver acc
      (fun _ acc => if p acc.caller then acc.deposit else 0)
    have h4 : w.accounts.part (fun _ acc => if p acc.caller then acc.deposit else 0) r.batch.receiver = 0 := by
      have : w.accounts.get r.batch.receiver = none := by
        simpa [PoolFactory.contains_eq] using g3
      unfold UMap.part; rw [this]
    rw [h4, g6, g7] at h3
    simp only [Option.isNone_some, Bool.false_eq_true, and_false, if_false]
    omega

theorem run_cons (cfg : Cfg) (w : World) (ev : Ev) (t : List Ev) :
    run cfg w (ev :: t) = run cfg (step cfg w ev) t := rfl

/-! ## A concrete history -/

def demoCfg : Cfg where
  self := "factory"
  validAccountId := fun a => a ≠ ".factory"
  readable := fun m => m ≠ .account "BAD"
  existing := fun a => a = "old.factory"

def demo0 : World :=
  { bal := 5, now := 7, wallet := fun _ => 100, accounts := .empty, receipts := [] }

def demoMembers : List Multisig2.Member := [.account "alice", .key "k"]

/-- One good creation, one with more confirmations than members, and one with a taken name. -/
def demo1 : List Ev :=
  [.create "alice" "k" 10 createCallGas true "m" demoMembers 2,
   .create "bob" "k" 20 (createCallGas + 1) true "n" demoMembers 3,
   .create "carol" "k" 30 createCallGas true "old" demoMembers 1,
   .create "alice" "k" 40 createCallGas true "" demoMembers 1]

def demo2 : List Ev := demo1 ++ [.deliver 0 true, .deliver 0 true, .deliver 0 true]

/-! ## C55 -/

/-- **C55, refuted.** There is a call that is accepted, whose creation fails without any fault of the
runtime, and after which the caller does not have the deposit, in whatever history follows (without
tokens from elsewhere): the factory keeps it. -/
theorem C55_refuted :
    ∃ (cfg : Cfg) (w0 : World) (who : AccountId) (att : Nat) (evs : List Ev),
      Started w0 ∧ 0 < att ∧ (run cfg w0 evs).receipts = [] ∧ (run cfg w0 evs).accounts.entries = [] ∧
      (∃ pk gas name ms n, evs = [.create who pk att gas true name ms n, .deliver 0 true]) ∧
      (run cfg w0 evs).bal = w0.bal + att ∧
      ∀ evs', earned cfg who evs' = 0 → (run cfg w0 (evs ++ evs')).wallet who + att ≤ w0.wallet who := by
  refine ⟨demoCfg, demo0, "bob", 20,
    [.create "bob" "k" 20 createCallGas true "n" demoMembers 3, .deliver 0 true],
    ⟨_, _, _, rfl⟩, by decide, by decide +kernel, by decide +kernel, ⟨_, _, _, _, _, rfl⟩,
    by decide +kernel, ?_⟩
  intro evs' he
  have hmono : ∀ (l : List Ev) (w : World), earned demoCfg "bob" l = 0 →
      (run demoCfg w l).wallet "bob" ≤ w.wallet "bob" := by
    intro l
    induction l with
    | nil => intro w _; exact Nat.le_refl _
    | cons ev t ih =>
      intro w h
      rw [run_cons]
      cases ev with
      | create who pk att gas hostOk name ms n =>
        refine Nat.le_trans (ih _ h) ?_
        simp only [step]
        split
        · split
          · simp only [debit]; split <;> omega
          · exact Nat.le_refl _
        · exact Nat.le_refl _
      | deliver i ok =>
        refine Nat.le_trans (ih _ h) ?_
        simp only [step]
        split
        · simp only [execReceipt]; split <;> exact Nat.le_refl _
        · exact Nat.le_refl _
      | income n => exact Nat.le_trans (ih _ h) (Nat.le_refl _)
      | earn who n =>
        simp only [earned] at h
        refine Nat.le_trans (ih _ (by omega)) ?_
        simp only [step]
        split
        · exact Nat.le_refl _
        · simp only [credit]
          split
          · rename_i h1 h2
            have : who = "bob" := h2.symm
            subst this
            simp only [true_and, ne_eq] at h
            rw [if_pos h1] at h
            omega
          · exact Nat.le_refl _
      | tick dt => exact Nat.le_trans (ih _ h) (Nat.le_refl _)
  have h1 : run demoCfg demo0 ([.create "bob" "k" 20 createCallGas true "n" demoMembers 3,
      .deliver 0 true] ++ evs') = run demoCfg (run demoCfg demo0
      [.create "bob" "k" 20 createCallGas true "n" demoMembers 3, .deliver 0 true]) evs' := by
    simp [run]
  rw [h1]
  have h2 := hmono evs' (run demoCfg demo0
      [.create "bob" "k" 20 createCallGas true "n" demoMembers 3, .deliver 0 true]) he
  have h3 : (run demoCfg demo0 [.create "bob" "k" 20 createCallGas true "n" demoMembers 3,
      .deliver 0 true]).wallet "bob" = 80 := by decide +kernel
  have h4 : demo0.wallet "bob" = 100 := rfl
  omega

/-- **C55, the general finding.** Nothing the contract does ever decreases the balance of the factory:
what came back from failed creations stays there in every history. -/
theorem C55_never_returned {cfg : Cfg} {w0 : World} (evs evs' : List Ev) :
    (run cfg w0 evs).bal + income evs' + failed cfg (fun _ => true) (run cfg w0 evs) evs' =
      (run cfg w0 (evs ++ evs')).bal := by
  have h1 : run cfg w0 (evs ++ evs') = run cfg (run cfg w0 evs) evs' := by simp [run]
  rw [h1]
  clear h1
  generalize run cfg w0 evs = w
  induction evs' generalizing w with
  | nil => rfl
  | cons ev t ih =>
    rw [run_cons, ← ih]
    cases ev with
    | create who pk att gas hostOk name ms n =>
      simp only [income, failed, step]
      split
      · split
        · rename_i b hx
          obtain ⟨_, _, _, _, _, rfl⟩ := create_ok.mp hx
          simp only
          omega
        · omega
      · omega
    | deliver i ok =>
      simp only [income, failed, step]
      cases hr : w.receipts[i]? with
      | none => simp
      | some r =>
        simp only [execReceipt]
        cases hd : (if ok then deploy cfg { w with receipts := w.receipts.eraseIdx i } r else none) with
        | none => simp only [Option.isNone_none, and_self, if_true]; omega
        | some acc =>
          simp only [Option.isNone_some, Bool.false_eq_true, and_false, if_false]
          omega
    | income n => simp only [income, failed, step]; omega
    | earn who n => simp only [income, failed, step]; split <;> simp
    | tick dt => simp [income, failed, step]

/-- **C55 (what holds of it).** The ledger of every account other than the factory: what an account had and
earned is in its wallet, on the accounts created for it, in creations in flight, or lost in failed
creations; the factory has its own tokens and everything that was lost. Missing for C55: the last term
should be zero, as failed deposits should go back to the wallet. -/
theorem C55_ledger_partial {cfg : Cfg} {w0 : World} (hs : Started w0) (evs : List Ev) :
    (∀ a, a ≠ cfg.self → w0.wallet a + earned cfg a evs = (run cfg w0 evs).wallet a +
      onAccounts (run cfg w0 evs) (fun x => x = a) + pendingOf (run cfg w0 evs) (fun x => x = a) +
      failed cfg (fun x => x = a) w0 evs) ∧
    (run cfg w0 evs).bal = w0.bal + income evs + failed cfg (fun _ => true) w0 evs := by
  refine ⟨fun a ha => ?_, ?_⟩
  · have key : ∀ (l : List Ev) (w : World),
        w.wallet a + onAccounts w (fun x => x = a) + pendingOf w (fun x => x = a) + earned cfg a l =
        (run cfg w l).wallet a + onAccounts (run cfg w l) (fun x => x = a) +
          pendingOf (run cfg w l) (fun x => x = a) + failed cfg (fun x => x = a) w l := by
      intro l
      induction l with
      | nil => intro w; rfl
      | cons ev t ih =>
        intro w
        have ih' := ih (step cfg w ev)
        rw [run_cons]
        cases ev with
        | create who pk att gas hostOk name ms n =>
          simp only [earned, failed]
          have : (step cfg w (.create who pk att gas hostOk name ms n)).wallet a +
              onAccounts (step cfg w (.create who pk att gas hostOk name ms n)) (fun x => x = a) +
              pendingOf (step cfg w (.create who pk att gas hostOk name ms n)) (fun x => x = a) =
              w.wallet a + onAccounts w (fun x => x = a) + pendingOf w (fun x => x = a) := by
            simp only [step]
            split
            · rename_i hle
              split
              · rename_i b hx
                obtain ⟨_, _, _, _, _, rfl⟩ := create_ok.mp hx
                rw [onAccounts_eq, onAccounts_eq, pendingOf_eq, pendingOf_eq]
                simp only [debit, rsum, List.map_append, List.sum_append, List.map_cons, List.map_nil,
                  List.sum_cons, List.sum_nil, decide_eq_true_eq]
                by_cases h : who = a
                · subst h
                  have := hle.1
                  simp only [if_true]
                  omega
                · have h' : a ≠ who := fun h2 => h h2.symm
                  simp only [h, h', if_false]
                  omega
              · rfl
            · rfl
          omega
        | deliver i ok =>
          simp only [earned, failed]
          cases hr : w.receipts[i]? with
          | none =>
            have : step cfg w (.deliver i ok) = w := by simp only [step, hr]
            rw [this] at ih' ⊢
            simp only
            omega
          | some r =>
            have h1 := exec_ledger cfg (fun x => x = a) w hr ok
            have h2 : (step cfg w (.deliver i ok)).wallet = w.wallet := by
              simp only [step, hr, execReceipt]; split <;> rfl
            rw [h2] at ih'
            simp only at h1 ⊢
            omega
        | income n => simp only [earned, failed, Nat.zero_add]; exact ih'
        | earn who n =>
          simp only [earned, failed]
          have : (step cfg w (.earn who n)).wallet a +
              onAccounts (step cfg w (.earn who n)) (fun x => x = a) +
              pendingOf (step cfg w (.earn who n)) (fun x => x = a) =
              w.wallet a + onAccounts w (fun x => x = a) + pendingOf w (fun x => x = a) +
              (if who = a ∧ a ≠ cfg.self then n else 0) := by
            simp only [step]
            split
            · rename_i hw
              have : ¬ (who = a ∧ a ≠ cfg.self) := by rintro ⟨rfl, h⟩; exact h hw
              rw [if_neg this, Nat.add_zero]
            · rename_i hw
              rw [onAccounts_eq, onAccounts_eq, pendingOf_eq, pendingOf_eq]
              simp only [credit]
              by_cases h : who = a
              · subst h; simp only [ne_eq, hw, not_false_eq_true, and_self, if_true]; omega
              · have h' : a ≠ who := fun h2 => h h2.symm
                simp only [h, h', false_and, if_false]; omega
          omega
        | tick dt => simp only [earned, failed, Nat.zero_add]; exact ih'
    have := key evs w0
    have e1 : onAccounts w0 (fun x => x = a) = 0 := by obtain ⟨bal, now, wallet, rfl⟩ := hs; rfl
    have e2 : pendingOf w0 (fun x => x = a) = 0 := by obtain ⟨bal, now, wallet, rfl⟩ := hs; rfl
    omega
  · have := C55_never_returned (cfg := cfg) (w0 := w0) [] evs
    simp only [List.nil_append] at this
    rw [← this]; rfl

/-- **C55 (what holds of it).** A call that is rejected immediately costs nothing; a call is accepted
exactly if the numbers are in range, the account id is well-formed and there is enough gas; then the
deposit leaves the caller with the creation. -/
theorem C55_accepted_partial (cfg : Cfg) (w : World) (who : AccountId) (pk : PublicKey) (att gas : Nat)
    (hostOk : Bool) (name : AccountId) (ms : List Multisig2.Member) (n : Nat)
    (hw : att ≤ w.wallet who) (hself : who ≠ cfg.self) :
    let w' := step cfg w (.create who pk att gas hostOk name ms n)
    let ok := n < two64 ∧ att < two128 ∧ cfg.validAccountId (subAccount name cfg.self) = true ∧
      50 * 10 ^ 12 ≤ gas ∧ hostOk = true
    (¬ ok → w' = w) ∧
    (ok → w'.wallet who + att = w.wallet who ∧ (∀ a, a ≠ who → w'.wallet a = w.wallet a) ∧ w'.bal = w.bal ∧
      w'.receipts = w.receipts ++
        [⟨⟨subAccount name cfg.self, .multisig2, att, ms, n, gas - 50 * 10 ^ 12⟩, who, pk⟩]) := by
  simp only [step]
  rw [if_pos ⟨hw, hself⟩]
  cases hx : create (mkEnv cfg who att gas hostOk) name ms n with
  | error m =>
    refine ⟨fun _ => rfl, fun h => ?_⟩
    have := (create_ok (who := who) (ms := ms)).mpr ⟨h.1, h.2.1, h.2.2.1, h.2.2.2.1, h.2.2.2.2, rfl⟩
    rw [hx] at this
    cases this
  | ok b =>
    obtain ⟨h1, h2, h3, h4, h5, rfl⟩ := create_ok.mp hx
    refine ⟨fun h => absurd ⟨h1, h2, h3, h4, h5⟩ h, fun _ => ⟨?_, fun a ha => ?_, ?_, rfl⟩⟩
    · simp only [debit, if_true]; omega
    · simp only [debit, if_neg ha]
    · simp only; omega

/-- **C55 (what holds of it).** Exactly when a creation that the runtime does not fail for a reason of its
own succeeds: the name has no dot, the account is free, multisig2 can read the members, and the number
of confirmations is a `u32` and not more than the members given. Then the new account has the code of
multisig2, is initialized with these members and this number, and got exactly the deposit. Otherwise the
deposit is added to the factory and no wallet changes. -/
theorem C55_creation_partial {cfg : Cfg} {w0 : World} (hs : Started w0) (evs : List Ev) {i : Nat}
    {r : Receipt} (hr : (run cfg w0 evs).receipts[i]? = some r) (ok : Bool) :
    let w := run cfg w0 evs
    let w' := step cfg w (.deliver i ok)
    let good := ok = true ∧ (∃ name, r.batch.receiver = subAccount name cfg.self ∧ '.' ∉ name.toList) ∧
      cfg.existing r.batch.receiver = false ∧ w.accounts.get r.batch.receiver = none ∧
      (∀ m ∈ r.batch.members, cfg.readable m = true) ∧ r.batch.numConfirmations < two32 ∧
      r.batch.numConfirmations ≤ r.batch.members.length
    (good → ∃ acc, w'.accounts.get r.batch.receiver = some acc ∧ acc.code = .multisig2 ∧
      Multisig2.Started r.batch.receiver r.batch.members r.batch.numConfirmations acc.multisig ∧
      acc.deposit = r.batch.deposit ∧ acc.caller = r.caller ∧ w'.bal = w.bal ∧ w'.wallet = w.wallet) ∧
    (¬ good → w'.accounts = w.accounts ∧ w'.bal = w.bal + r.batch.deposit ∧ w'.wallet = w.wallet) := by
  have hrs : ∀ r ∈ (run cfg w0 evs).receipts, ReceiptOk cfg r := by
    refine receipts_run ?_ evs
    obtain ⟨bal, now, wallet, rfl⟩ := hs
    intro r hr; cases hr
  obtain ⟨hc, hdep, name, hname⟩ := hrs r (List.mem_of_getElem? hr)
  generalize run cfg w0 evs = w at hr
  have hgood : (ok = true ∧ (∃ name, r.batch.receiver = subAccount name cfg.self ∧ '.' ∉ name.toList) ∧
      cfg.existing r.batch.receiver = false ∧ w.accounts.get r.batch.receiver = none ∧
      (∀ m ∈ r.batch.members, cfg.readable m = true) ∧ r.batch.numConfirmations < two32 ∧
      r.batch.numConfirmations ≤ r.batch.members.length) ↔
      ∃ acc, (if ok then deploy cfg { w with receipts := w.receipts.eraseIdx i } r else none) = some acc := by
    have hsub : (∃ name, r.batch.receiver = subAccount name cfg.self ∧ '.' ∉ name.toList) ↔
        directSub cfg.self r.batch.receiver = true := by
      rw [hname, directSub_subAccount, decide_eq_true_eq]
      constructor
      · rintro ⟨n2, h1, h2⟩; rw [subAccount_inj h1]; exact h2
      · intro h; exact ⟨name, rfl, h⟩
    cases ok with
    | false => simp
    | true =>
      simp only [true_and, if_true]
      rw [deploy_iff, hsub, List.all_eq_true]
      simp only [PoolFactory.contains_eq, Option.isSome_eq_false_iff, Option.isNone_iff_eq_none]
  simp only
  rw [hgood]
  simp only [step, hr, execReceipt]
  cases hd : (if ok then deploy cfg { w with receipts := w.receipts.eraseIdx i } r else none) with
  | none => exact ⟨fun ⟨acc, h⟩ => (by cases h), fun _ => ⟨rfl, rfl, rfl⟩⟩
  | some acc =>
    refine ⟨fun _ => ?_, fun h => absurd ⟨acc, rfl⟩ h⟩
    have hd' : deploy cfg { w with receipts := w.receipts.eraseIdx i } r = some acc := by
      cases ok with
      | true => exact hd
      | false => cases hd
    obtain ⟨_, _, _, _, g5, g6, g7, _, c, b, g8, g9, _⟩ := deploy_some hd'
    exact ⟨acc, by simp, g5.trans hc, ⟨c, b, w.now, cfg.self, r.pk, g8, g9⟩, g6, g7, rfl, rfl⟩

/-- `alice` got a multisig; the deposits of `bob` and `carol` are lost; the second call of `alice` was
rejected. -/
example : (run demoCfg demo0 demo1).receipts.length = 3 ∧ (run demoCfg demo0 demo2).receipts = [] ∧
    (run demoCfg demo0 demo2).bal = 5 + 20 + 30 ∧ (run demoCfg demo0 demo2).wallet "alice" = 90 ∧
    (run demoCfg demo0 demo2).wallet "bob" = 80 ∧ (run demoCfg demo0 demo2).wallet "carol" = 70 ∧
    onAccounts (run demoCfg demo0 demo2) (fun x => x = "alice") = 10 ∧
    failed demoCfg (fun x => x = "bob") demo0 demo2 = 20 := by
  decide +kernel

end Verif.MultisigFactory
