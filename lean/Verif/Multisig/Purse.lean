import Verif.Multisig.Props4

/-!
# The tokens of the multisig account

`Multisig.Keys` has no balances. Here the account has tokens: batches of executed requests take along the
tokens they transfer or attach (the host refuses a batch the account cannot pay for), a full access key can
sign any transaction, and tokens arrive from outside (payments, and refunds of what was sent before).

Not modelled: gas fees, storage staking. Tokens that the account sends to itself stay where they are.
-/

namespace Verif.Multisig

open Verif

/-- The tokens an action takes along: `Promise::transfer` and the deposit of `Promise::function_call`
(multisig/src/lib.rs:173 and 217-227). -/
def PAction.amount : PAction → Nat
  | .transfer a => a
  | .functionCall _ _ d _ => d
  | _ => 0

/-- The tokens a list of actions takes along. -/
def actsAmount (l : List PAction) : Nat := (l.map PAction.amount).sum

/-- The tokens a batch takes along. -/
def Batch.amount (b : Batch) : Nat := actsAmount b.actions

/-- The tokens that all batches of a list take along. -/
def allAmount (l : List (Nat × Batch)) : Nat := (l.map (fun x => x.2.amount)).sum

/-- The tokens that leave the account with the batches of a list. -/
def leaving (self : AccountId) (l : List (Nat × Batch)) : Nat :=
  (l.map (fun x => if x.2.receiver = self then 0 else x.2.amount)).sum

/-- The account with its tokens. -/
structure PWorld where
  kw : KWorld
  bal : Nat
  /-- history variable: transactions to other accounts signed with a key of the account, with the tokens
  they took along -/
  paid : List (PublicKey × AccountId × Nat)

/-- Events. -/
inductive PEv where
  /-- an event of the account -/
  | acc (ev : KEv)
  /-- a transaction to another account, signed with `pk` -/
  | out (pk : PublicKey) (receiver : AccountId) (acts : List PAction)
  /-- tokens arrive -/
  | receive (amount : Nat)

/-- The batches that were issued between two moments. -/
def issuedSince (kw kw' : KWorld) : List (Nat × Batch) :=
  kw'.w.issued.take (kw'.w.issued.length - kw.w.issued.length)

/-- One event. An event in which the host would accept a batch that the account cannot pay for does not
happen (the same event with a refusing host is another event). Only a full access key can send tokens. -/
def pstep (cfg : KCfg) (pw : PWorld) : PEv → PWorld
  | .acc ev =>
    let kw' := kstep cfg pw.kw ev
    let l := issuedSince pw.kw kw'
    if allAmount l ≤ pw.bal then { pw with kw := kw', bal := pw.bal - leaving cfg.self l } else pw
  | .out pk receiver acts =>
    match pw.kw.keys.get pk with
    | some .full =>
      if receiver ≠ cfg.self ∧ actsAmount acts ≤ pw.bal then
        { pw with bal := pw.bal - actsAmount acts, paid := (pk, receiver, actsAmount acts) :: pw.paid }
      else pw
    | _ => pw
  | .receive n => { pw with bal := pw.bal + n }

/-- A history. -/
def prun (cfg : KCfg) (pw : PWorld) (evs : List PEv) : PWorld := evs.foldl (pstep cfg) pw

/-- The tokens that arrived in a history. -/
def received : List PEv → Nat
  | [] => 0
  | .receive n :: t => n + received t
  | _ :: t => received t

/-! ## Helper lemmas -/

theorem prun_snoc (cfg : KCfg) (pw : PWorld) (l : List PEv) (ev : PEv) :
    prun cfg pw (l ++ [ev]) = pstep cfg (prun cfg pw l) ev := by
  simp [prun]

theorem received_snoc (l : List PEv) (ev : PEv) : received (l ++ [ev]) = received l + received [ev] := by
  induction l with
  | nil => simp [received]
  | cons a t ih => cases a <;> simp only [List.cons_append, received, ih]; omega

theorem suffix_logged {r : Res} {l : List (Nat × Batch)} : l <:+ logged r l := by
  unfold logged
  cases r.batch with
  | none => exact List.suffix_refl _
  | some b => exact List.suffix_cons _ _

theorem suffix_world (self : AccountId) (w : World) (ev : Ev) : w.issued <:+ (step self w ev).issued := by
  cases ev with
  | tick dt => exact List.suffix_refl _
  | call who pk att host c =>
    simp only [step]
    split
    · exact suffix_logged
    · exact List.suffix_refl _

theorem suffix_run (self : AccountId) (l : List Ev) (w : World) : w.issued <:+ (run self w l).issued := by
  induction l generalizing w with
  | nil => exact List.suffix_refl _
  | cons ev t ih => exact (suffix_world self w ev).trans (ih _)

theorem suffix_step {cfg : KCfg} (kw : KWorld) (ev : KEv) :
    kw.w.issued <:+ (kstep cfg kw ev).w.issued := by
  cases ev with
  | sign pk acts hosts =>
    simp only [kstep]
    split
    · exact List.suffix_refl _
    · split
      · cases hb : runBatch cfg pk kw hosts acts with
        | none => exact List.suffix_refl _
        | some kw' =>
          obtain ⟨⟨l, _, h, _⟩, _⟩ := runBatch_facts cfg pk acts kw kw' hosts hb
          rw [Option.getD_some, h]; exact suffix_run _ _ _
      · exact List.suffix_refl _
  | deliver i hosts =>
    simp only [kstep]
    split
    · exact List.suffix_refl _
    · rename_i pk b _
      cases hb : runBatch cfg pk { kw with queue := kw.queue.eraseIdx i } hosts b.actions with
      | none => exact List.suffix_refl _
      | some kw' =>
        obtain ⟨⟨l, _, h, _⟩, _⟩ := runBatch_facts cfg pk b.actions _ kw' hosts hb
        rw [Option.getD_some, h]; exact suffix_run _ _ _
  | foreign who pk att host c =>
    simp only [kstep]
    split
    · exact List.suffix_refl _
    · exact suffix_world _ _ _
  | tick dt => exact List.suffix_refl _

/-- The batches since a moment, in front of those before. -/
theorem since_append {cfg : KCfg} (kw : KWorld) (ev : KEv) :
    (kstep cfg kw ev).w.issued = issuedSince kw (kstep cfg kw ev) ++ kw.w.issued := by
  obtain ⟨t, ht⟩ := suffix_step (cfg := cfg) kw ev
  unfold issuedSince
  rw [← ht]
  simp

theorem leaving_append (self : AccountId) (l1 l2 : List (Nat × Batch)) :
    leaving self (l1 ++ l2) = leaving self l1 + leaving self l2 := by
  simp [leaving]

theorem leaving_le (self : AccountId) (l : List (Nat × Batch)) : leaving self l ≤ allAmount l := by
  induction l with
  | nil => exact Nat.le_refl _
  | cons x t ih =>
    simp only [leaving, allAmount, List.map_cons, List.sum_cons] at ih ⊢
    split <;> omega

/-- Somewhere in the history a transaction was signed with `k` while `k` was an access key of the
account that permitted it. -/
def PSigned (cfg : KCfg) (pw0 : PWorld) (evs : List PEv) (k : PublicKey) : Prop :=
  ∃ l1 acts hosts l2, evs = l1 ++ .acc (.sign k acts hosts) :: l2 ∧ Signs cfg (prun cfg pw0 l1).kw k acts

theorem PSigned.snoc {cfg : KCfg} {pw0 : PWorld} {evs : List PEv} {k : PublicKey}
    (h : PSigned cfg pw0 evs k) (ev : PEv) : PSigned cfg pw0 (evs ++ [ev]) k := by
  obtain ⟨l1, a, hs, l2, rfl, hp⟩ := h
  exact ⟨l1, a, hs, l2 ++ [ev], by simp, hp⟩

/-- The account follows a history of `Multisig.Keys`. -/
theorem prun_krun (cfg : KCfg) (pw : PWorld) (evs : List PEv) :
    ∃ kevs, (prun cfg pw evs).kw = krun cfg pw.kw kevs ∧
      ∀ k, SignedIn cfg pw.kw kevs k → PSigned cfg pw evs k := by
  induction evs using List.reverseRecOn with
  | nil =>
    refine ⟨[], rfl, fun k h => ?_⟩
    obtain ⟨l1, a, hs, l2, h, _⟩ := h
    exact absurd (congrArg List.length h) (by simp)
  | append_singleton l ev ih =>
    obtain ⟨kevs, h, hsg⟩ := ih
    rw [prun_snoc]
    cases ev with
    | receive n => exact ⟨kevs, h, fun k hk => (hsg k hk).snoc _⟩
    | out pk receiver acts =>
      refine ⟨kevs, ?_, fun k hk => (hsg k hk).snoc _⟩
      simp only [pstep]
      split
      · split <;> exact h
      · exact h
    | acc ev =>
      simp only [pstep]
      split
      · refine ⟨kevs ++ [ev], by rw [krun_snoc, ← h], fun k hk => ?_⟩
        obtain ⟨l1, a, hs, l2, he, hp⟩ := hk
        rcases List.eq_nil_or_concat l2 with rfl | ⟨l3, x, rfl⟩
        · obtain ⟨h1, h2⟩ := List.append_inj' he rfl
          cases h2
          exact ⟨l, a, hs, [], rfl, by rw [h, h1]; exact hp⟩
        · rw [List.concat_eq_append, ← List.cons_append, ← List.append_assoc] at he
          obtain ⟨h1, _⟩ := List.append_inj' he rfl
          exact (hsg k ⟨l1, a, hs, l3, h1, hp⟩).snoc _
      · exact ⟨kevs, h, fun k hk => (hsg k hk).snoc _⟩

/-- Nothing gets lost. -/
theorem prun_sum (cfg : KCfg) (pw : PWorld) (evs : List PEv) :
    (prun cfg pw evs).bal + leaving cfg.self (prun cfg pw evs).kw.w.issued +
      ((prun cfg pw evs).paid.map (fun x => x.2.2)).sum =
    pw.bal + leaving cfg.self pw.kw.w.issued + (pw.paid.map (fun x => x.2.2)).sum + received evs := by
  induction evs using List.reverseRecOn with
  | nil => rfl
  | append_singleton l ev ih =>
    rw [prun_snoc, received_snoc]
    generalize prun cfg pw l = p at ih
    cases ev with
    | receive n => simp only [pstep, received]; omega
    | out pk receiver acts =>
      simp only [pstep, received]
      split
      · split
        · rename_i hle
          simp only [List.map_cons, List.sum_cons]
          omega
        · omega
      · omega
    | acc ev =>
      simp only [pstep, received]
      split
      · rename_i hle
        have h1 := since_append (cfg := cfg) p.kw ev
        have h2 := leaving_le cfg.self (issuedSince p.kw (kstep cfg p.kw ev))
        simp only
        rw [h1, leaving_append]
        omega
      · omega

/-- Without full access keys nothing is paid with keys. -/
theorem prun_paid {cfg : KCfg} {pw : PWorld} (evs : List PEv)
    (h : ∀ l1 l2, evs = l1 ++ l2 → ∀ k, (prun cfg pw l1).kw.keys.get k ≠ some .full) :
    (prun cfg pw evs).paid = pw.paid := by
  induction evs using List.reverseRecOn with
  | nil => rfl
  | append_singleton l ev ih =>
    have ih := ih (fun l1 l2 he => h l1 (l2 ++ [ev]) (by rw [he]; simp))
    have hk := h l [ev] rfl
    rw [prun_snoc]
    cases ev with
    | receive n => exact ih
    | out pk receiver acts =>
      simp only [pstep]
      split
      · rename_i hf; exact absurd hf (hk pk)
      · exact ih
    | acc ev =>
      simp only [pstep]
      split <;> exact ih

/-- What was issued stays issued. -/
theorem prun_issued {cfg : KCfg} {pw : PWorld} (l1 l2 : List PEv) :
    (prun cfg pw l1).kw.w.issued ⊆ (prun cfg pw (l1 ++ l2)).kw.w.issued := by
  induction l2 using List.reverseRecOn with
  | nil => rw [List.append_nil]; exact fun _ h => h
  | append_singleton l ev ih =>
    rw [← List.append_assoc, prun_snoc]
    refine fun x hx => ?_
    have hx := ih hx
    cases ev with
    | receive n => exact hx
    | out pk receiver acts =>
      simp only [pstep]
      split
      · split <;> exact hx
      · exact hx
    | acc ev =>
      simp only [pstep]
      split
      · exact issued_step _ ev hx
      · exact hx

end Verif.Multisig
