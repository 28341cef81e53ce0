import Verif.Multisig.Purse

/-!
# Multisig property C118: the tokens of the account
-/

namespace Verif.Multisig

open Verif

/-! ## Specification -/

/-- The tokens that go along with an action: a payment, or the deposit of a call. -/
def tokens : PAction → Nat
  | .transfer a => a
  | .functionCall _ _ d _ => d
  | .createAccount => 0
  | .deployContract _ => 0
  | .addAccessKey _ _ _ _ => 0
  | .addFullAccessKey _ => 0
  | .deleteKey _ => 0

/-- The tokens that executed requests took to other accounts. -/
def spent (self : AccountId) (issued : List (Nat × Batch)) : Nat :=
  (issued.map (fun x => if x.2.receiver = self then 0 else (x.2.actions.map tokens).sum)).sum

/-! ## Helper lemmas -/

theorem leaving_spent (self : AccountId) (l : List (Nat × Batch)) : leaving self l = spent self l := by
  have : PAction.amount = tokens := funext (fun a => by cases a <;> rfl)
  unfold leaving spent Batch.amount actsAmount
  rw [this]

/-! ## Property theorems -/

/-- **C118 (nothing gets lost).** The tokens on the account, those that executed requests took to other
accounts and those of transactions signed with a full access key are together always what was there and what
arrived. Transactions signed with a full access key exist only if the account had such a key to begin with or
a request that adds one was executed. -/
theorem C118_multisig_nothing_gets_lost {cfg : KCfg} {n : Nat} {kw0 : KWorld} (hs : KStarted n kw0)
    (bal0 : Nat) (evs : List PEv) :
    let pw := prun cfg ⟨kw0, bal0, []⟩ evs
    pw.bal + spent cfg.self pw.kw.w.issued + (pw.paid.map (fun x => x.2.2)).sum = bal0 + received evs ∧
    (pw.paid ≠ [] → (∃ k, kw0.keys.get k = some .full) ∨
      ∃ id b k, (id, b) ∈ pw.kw.w.issued ∧ .addFullAccessKey k ∈ b.actions) := by
  intro pw
  refine ⟨?_, fun hp => ?_⟩
  · have h := prun_sum cfg ⟨kw0, bal0, []⟩ evs
    obtain ⟨c, now, _, hw⟩ := hs.1
    have h0 : kw0.w.issued = [] := by rw [hw]
    simp only [h0, leaving_spent] at h
    exact h.trans (by simp [spent])
  · by_contra hno
    push Not at hno
    obtain ⟨h1, h2⟩ := hno
    refine hp (prun_paid evs ?_)
    intro l1 l2 he k
    obtain ⟨kevs, hk, _⟩ := prun_krun cfg ⟨kw0, bal0, []⟩ l1
    rw [hk]
    refine C97_multisig_no_full_access hs kevs h1 (fun id b k' hi => h2 id b k' ?_) k
    show (id, b) ∈ (prun cfg ⟨kw0, bal0, []⟩ evs).kw.w.issued
    rw [he]
    exact prun_issued l1 l2 (hk ▸ hi)

/-- **C118 (tokens leave only by confirmed requests).** If the account starts without full access keys and no
executed request adds one, then whatever left the account left by executed requests. Each of them was executed
once, is exactly what was proposed under its number, and was confirmed by at least as many distinct keys as the
account asked for when it was executed; each of these keys signed a transaction at a time when it was an access
key of the account that permitted it. -/
theorem C118_multisig_tokens_leave_only_by_requests {cfg : KCfg} {n : Nat} {kw0 : KWorld}
    (hs : KStarted n kw0) (h0 : ∀ k, kw0.keys.get k ≠ some .full) (bal0 : Nat) (evs : List PEv) :
    let pw := prun cfg ⟨kw0, bal0, []⟩ evs
    (∀ id b k, (id, b) ∈ pw.kw.w.issued → .addFullAccessKey k ∉ b.actions) →
    pw.bal + spent cfg.self pw.kw.w.issued = bal0 + received evs ∧
    (pw.kw.w.issued.map Prod.fst).Nodup ∧
    ∀ id b, (id, b) ∈ pw.kw.w.issued → ∃ l1 ev l2 k0 q,
      pw.kw.log = l1 ++ ev :: l2 ∧
      Sometime cfg.self kw0.w (l1 ++ [ev]) (fun w e => Adds cfg.self w e k0 id q) ∧
      b.receiver = q.receiver ∧ b.actions = q.actions.filterMap Action.toP ∧
      ∃ conf : List PublicKey, conf.Nodup ∧ getNumConfirmations (run cfg.self kw0.w l1).c ≤ conf.length ∧
        ∀ k ∈ conf, Sometime cfg.self kw0.w (l1 ++ [ev]) (fun w e => Confirms cfg.self w e k id) ∧
          ∃ p1 acts hosts p2, evs = p1 ++ .acc (.sign k acts hosts) :: p2 ∧
            Signs cfg (prun cfg ⟨kw0, bal0, []⟩ p1).kw k acts := by
  intro pw hi
  obtain ⟨g1, g2⟩ := C118_multisig_nothing_gets_lost (cfg := cfg) hs bal0 evs
  have hp : pw.paid = [] := by
    by_contra hp
    rcases g2 hp with ⟨k, hk⟩ | ⟨id, b, k, h1, h2⟩
    · exact h0 k hk
    · exact hi id b k h1 h2
  obtain ⟨kevs, hk, hsg⟩ := prun_krun cfg ⟨kw0, bal0, []⟩ evs
  have hk : pw.kw = krun cfg kw0 kevs := hk
  have hlog : pw.kw.w = run cfg.self kw0.w pw.kw.log := by rw [hk]; exact (kinv_run hs kevs).w
  refine ⟨?_, ?_, ?_⟩
  · have g1 : pw.bal + spent cfg.self pw.kw.w.issued + (pw.paid.map (fun x => x.2.2)).sum =
      bal0 + received evs := g1
    rw [hp] at g1
    exact g1
  · exact C42_executed_at_most_once ⟨kw0.w, pw.kw.log, hs.1, hlog⟩
  · intro id b hm
    rw [hk] at hm ⊢
    obtain ⟨l1, ev, l2, k1, k2, conf, k3, k4, k5⟩ := C45_confirmations_were_authorised_partial hs kevs hm
    obtain ⟨k0, q, j1, j2, j3, _⟩ := C42_executed_as_requested hs.1 (l1 ++ [ev])
      (id := id) (b := b) (by rw [run_snoc, k2]; exact List.mem_cons_self)
    exact ⟨l1, ev, l2, k0, q, k1, j1, j2, j3, conf, k3, k4,
      fun k hkc => ⟨(k5 k hkc).2, hsg k (k5 k hkc).1⟩⟩

/-- The account of `demoKeys` with 7 tokens: two keys pay 5, two tokens arrive, a second payment of 5 is not
possible, and `k1` tries to send tokens with its key. -/
def demoPurse : List PEv :=
  [.acc (demoTx "k1" "add_request" 0), .acc (demoTx "k1" "confirm" 0), .acc (demoTx "k2" "confirm" 0),
   .receive 2, .acc (demoTx "k3" "add_request" 0), .acc (demoTx "k3" "confirm" 1),
   .acc (demoTx "k2" "confirm" 1), .out "k1" "eve" [.transfer 1]]

/-- The hypotheses are met (for the keys of `demoKeys` see the examples of C97). -/
example :
    let pw := prun demoKCfg ⟨demoKeys, 7, []⟩ demoPurse
    pw.bal = 4 ∧ pw.paid = [] ∧ pw.kw.w.issued = [(0, ⟨"bob", [.transfer 5]⟩)] ∧
    spent "ms" pw.kw.w.issued = 5 ∧ received demoPurse = 2 := by
  decide +kernel

/-- The other case: with the full access key that was granted by a request, everything can be taken. -/
example :
    let pw := prun demoGrantCfg ⟨demoKeys, 7, []⟩ (demoGrantRun.map .acc ++ [.out "k9" "eve" [.transfer 7]])
    pw.bal = 0 ∧ pw.paid = [("k9", "eve", 7)] := by
  decide +kernel

end Verif.Multisig
