import Verif.Multisig2.Founders

/-!
# The tokens of the multisig2 account

`Multisig2.Keys` has no balances. Here the account has tokens: batches of executed requests take along the
tokens they transfer or attach (the host refuses a batch the account cannot pay for), a full access key can
sign any transaction, and tokens arrive from outside (payments, and refunds of what was sent before).

Not modelled: gas fees, storage staking. Tokens that the account sends to itself stay where they are.
-/

namespace Verif.Multisig2

open Verif

/-- The tokens an action takes along: `Promise::transfer` and the deposit of `Promise::function_call`
(multisig2/src/lib.rs:230 and 263-273). -/
def PAction.amount : PAction → Nat
  | .transfer a => a
  | .functionCall _ _ d _ => d
  | _ => 0

/-- The tokens a list of actions takes along. -/
def actsAmount (l : List PAction) : Nat := (l.map PAction.amount).sum

/-- The tokens a batch takes along. -/
def Batch.amount (b : Batch) : Nat := actsAmount b.actions

/-- The tokens that all batches of a list take along. -/
def allAmount (l : List (Nat × Batch)) : Nat := (l.map (fun x => x.2.amount)).sum

/-- The tokens that leave the account with the batches of a list. -/
def leaving (self : AccountId) (l : List (Nat × Batch)) : Nat :=
  (l.map (fun x => if x.2.receiver = self then 0 else x.2.amount)).sum

/-- The account with its tokens. -/
structure PWorld where
  kw : KWorld
  bal : Nat
  /-- history variable: transactions to other accounts signed with a key of the account, with the tokens
  they took along -/
  paid : List (PublicKey × AccountId × Nat)

/-- Events. -/
inductive PEv where
  /-- an event of the account -/
  | acc (ev : KEv)
  /-- a transaction to another account, signed with `pk` -/
  | out (pk : PublicKey) (receiver : AccountId) (acts : List PAction)
  /-- tokens arrive -/
  | receive (amount : Nat)

/-- The batches that were issued between two moments. -/
def issuedSince (kw kw' : KWorld) : List (Nat × Batch) :=
  kw'.w.issued.take (kw'.w.issued.length - kw.w.issued.length)

/-- One event. An event in which the host would accept a batch that the account cannot pay for does not
happen (the same event with a refusing host is another event). Only a full access key can send tokens. -/
def pstep (cfg : KCfg) (pw : PWorld) : PEv → PWorld
  | .acc ev =>
    let kw' := kstep cfg pw.kw ev
    let l := issuedSince pw.kw kw'
    if allAmount l ≤ pw.bal then { pw with kw := kw', bal := pw.bal - leaving cfg.self l } else pw
  | .out pk receiver acts =>
    match pw.kw.keys.get pk with
    | some .full =>
      if receiver ≠ cfg.self ∧ actsAmount acts ≤ pw.bal then
        { pw with bal := pw.bal - actsAmount acts, paid := (pk, receiver, actsAmount acts) :: pw.paid }
      else pw
    | _ => pw
  | .receive n => { pw with bal := pw.bal + n }

/-- A history. -/
def prun (cfg : KCfg) (pw : PWorld) (evs : List PEv) : PWorld := evs.foldl (pstep cfg) pw

/-- The tokens that arrived in a history. -/
def received : List PEv → Nat
  | [] => 0
  | .receive n :: t => n + received t
  | _ :: t => received t

/-! ## Helper lemmas -/

theorem prun_snoc (cfg : KCfg) (pw : PWorld) (l : List PEv) (ev : PEv) :
    prun cfg pw (l ++ [ev]) = pstep cfg (prun cfg pw l) ev := by
  simp [prun]

theorem received_snoc (l : List PEv) (ev : PEv) : received (l ++ [ev]) = received l + received [ev] := by
  induction l with
  | nil => simp [received]
  | cons a t ih => cases a <;> simp only [List.cons_append, received, ih]; omega

theorem suffix_logged {r : Res} {l : List (Nat × Batch)} : l <:+ logged r l := by
  unfold logged
  cases r.batch with
  | none => exact List.suffix_refl _
  | some b => exact List.suffix_cons _ _

theorem suffix_step {cfg : KCfg} (kw : KWorld) (ev : KEv) :
    kw.w.issued <:+ (kstep cfg kw ev).w.issued := by
  refine kstep_induct (fun kw' => kw.w.issued <:+ kw'.w.issued) (fun kw q _ h => h) ?_ (fun kw dt h => h)
    kw ev (fun _ _ _ _ _ _ _ h => h) (fun _ _ _ _ _ h => h) (List.suffix_refl _)
  intro kw1 kw' who pk d host c hc h
  obtain ⟨r, _, rfl, hst⟩ := callK_some hc
  exact h.trans suffix_logged

/-- The batches since a moment, in front of those before. -/
theorem since_append {cfg : KCfg} (kw : KWorld) (ev : KEv) :
    (kstep cfg kw ev).w.issued = issuedSince kw (kstep cfg kw ev) ++ kw.w.issued := by
  obtain ⟨t, ht⟩ := suffix_step (cfg := cfg) kw ev
  unfold issuedSince
  rw [← ht]
  simp

theorem leaving_append (self : AccountId) (l1 l2 : List (Nat × Batch)) :
    leaving self (l1 ++ l2) = leaving self l1 + leaving self l2 := by
  simp [leaving]

theorem allAmount_append (l1 l2 : List (Nat × Batch)) :
    allAmount (l1 ++ l2) = allAmount l1 + allAmount l2 := by
  simp [allAmount]

theorem leaving_le (self : AccountId) (l : List (Nat × Batch)) : leaving self l ≤ allAmount l := by
  induction l with
  | nil => exact Nat.le_refl _
  | cons x t ih =>
    simp only [leaving, allAmount, List.map_cons, List.sum_cons] at ih ⊢
    split <;> omega

/-- The account follows a history of `Multisig2.Keys`. -/
theorem prun_krun (cfg : KCfg) (pw : PWorld) (evs : List PEv) :
    ∃ kevs, (prun cfg pw evs).kw = krun cfg pw.kw kevs := by
  induction evs using List.reverseRecOn with
  | nil => exact ⟨[], rfl⟩
  | append_singleton l ev ih =>
    obtain ⟨kevs, h⟩ := ih
    rw [prun_snoc]
    cases ev with
    | receive n => exact ⟨kevs, h⟩
    | out pk receiver acts =>
      refine ⟨kevs, ?_⟩
      simp only [pstep]
      split
      · split <;> exact h
      · exact h
    | acc ev =>
      simp only [pstep]
      split
      · exact ⟨kevs ++ [ev], by rw [krun_snoc, ← h]⟩
      · exact ⟨kevs, h⟩

/-- Nothing gets lost. -/
theorem prun_sum (cfg : KCfg) (pw : PWorld) (evs : List PEv) :
    (prun cfg pw evs).bal + leaving cfg.self (prun cfg pw evs).kw.w.issued +
      ((prun cfg pw evs).paid.map (fun x => x.2.2)).sum =
    pw.bal + leaving cfg.self pw.kw.w.issued + (pw.paid.map (fun x => x.2.2)).sum + received evs := by
  induction evs using List.reverseRecOn with
  | nil => rfl
  | append_singleton l ev ih =>
    rw [prun_snoc, received_snoc]
    generalize prun cfg pw l = p at ih
    cases ev with
    | receive n => simp only [pstep, received]; omega
    | out pk receiver acts =>
      simp only [pstep, received]
      split
      · split
        · rename_i hle
          simp only [List.map_cons, List.sum_cons]
          omega
        · omega
      · omega
    | acc ev =>
      simp only [pstep, received]
      split
      · rename_i hle
        have h1 := since_append (cfg := cfg) p.kw ev
        have h2 := leaving_le cfg.self (issuedSince p.kw (kstep cfg p.kw ev))
        simp only
        rw [h1, leaving_append]
        omega
      · omega

/-- Without full access keys nothing is paid with keys. -/
theorem prun_paid {cfg : KCfg} {pw : PWorld} (evs : List PEv)
    (h : ∀ l1 l2, evs = l1 ++ l2 → ∀ k, (prun cfg pw l1).kw.keys.get k ≠ some .full) :
    (prun cfg pw evs).paid = pw.paid := by
  induction evs using List.reverseRecOn with
  | nil => rfl
  | append_singleton l ev ih =>
    have ih := ih (fun l1 l2 he => h l1 (l2 ++ [ev]) (by rw [he]; simp))
    have hk := h l [ev] rfl
    rw [prun_snoc]
    cases ev with
    | receive n => exact ih
    | out pk receiver acts =>
      simp only [pstep]
      split
      · rename_i hf; exact absurd hf (hk pk)
      · exact ih
    | acc ev =>
      simp only [pstep]
      split <;> exact ih

/-- What was issued stays issued. -/
theorem prun_issued {cfg : KCfg} {pw : PWorld} (l1 l2 : List PEv) :
    (prun cfg pw l1).kw.w.issued ⊆ (prun cfg pw (l1 ++ l2)).kw.w.issued := by
  induction l2 using List.reverseRecOn with
  | nil => rw [List.append_nil]; exact fun _ h => h
  | append_singleton l ev ih =>
    rw [← List.append_assoc, prun_snoc]
    refine fun x hx => ?_
    have hx := ih hx
    cases ev with
    | receive n => exact hx
    | out pk receiver acts =>
      simp only [pstep]
      split
      · split <;> exact hx
      · exact hx
    | acc ev =>
      simp only [pstep]
      split
      · exact issued_step _ ev hx
      · exact hx

/-- If the account can pay for everything, then its tokens do not matter. -/
theorem prun_enough (cfg : KCfg) (kevs : List KEv) (pw : PWorld) (l : List (Nat × Batch))
    (hl : (krun cfg pw.kw kevs).w.issued = l ++ pw.kw.w.issued) (hle : allAmount l ≤ pw.bal) :
    (prun cfg pw (kevs.map .acc)).kw = krun cfg pw.kw kevs ∧
    (prun cfg pw (kevs.map .acc)).bal = pw.bal - leaving cfg.self l := by
  induction kevs generalizing pw l with
  | nil =>
    have : l = [] := by
      have := congrArg List.length hl
      simp only [krun, List.length_append] at this
      exact List.length_eq_zero_iff.mp (by omega)
    subst this
    exact ⟨rfl, rfl⟩
  | cons ev t ih =>
    simp only [krun] at hl
    have h1 := since_append (cfg := cfg) pw.kw ev
    have hsuf : ∀ (t : List KEv) (kw : KWorld), kw.w.issued <:+ (krun cfg kw t).w.issued := by
      intro t
      induction t with
      | nil => exact fun _ => List.suffix_refl _
      | cons e t ih => exact fun kw => (suffix_step kw e).trans (ih _)
    obtain ⟨l2, h2⟩ := hsuf t (kstep cfg pw.kw ev)
    have h3 : l = l2 ++ issuedSince pw.kw (kstep cfg pw.kw ev) := by
      rw [← h2, h1, ← List.append_assoc] at hl
      exact (List.append_cancel_right hl).symm
    subst h3
    rw [allAmount_append] at hle
    have h4 := leaving_le cfg.self (issuedSince pw.kw (kstep cfg pw.kw ev))
    have hst : pstep cfg pw (.acc ev) = { pw with
        kw := kstep cfg pw.kw ev
        bal := pw.bal - leaving cfg.self (issuedSince pw.kw (kstep cfg pw.kw ev)) } := by
      simp only [pstep]
      rw [if_pos (by omega)]
    obtain ⟨g1, g2⟩ := ih (pstep cfg pw (.acc ev)) l2 (by rw [hst]; exact h2.symm) (by rw [hst]; simp only; omega)
    refine ⟨?_, ?_⟩
    · show (prun cfg (pstep cfg pw (.acc ev)) _).kw = _
      rw [g1, hst]; rfl
    · show (prun cfg (pstep cfg pw (.acc ev)) _).bal = _
      rw [g2, hst, leaving_append]; simp only; omega

end Verif.Multisig2
