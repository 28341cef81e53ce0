import Verif.Multisig2.Purse

/-!
# Multisig2 property C118: the tokens of the account
-/

namespace Verif.Multisig2

open Verif

/-! ## Specification -/

/-- The tokens that go along with an action: a payment, or the deposit of a call. -/
def tokens : PAction → Nat
  | .transfer a => a
  | .functionCall _ _ d _ => d
  | .createAccount => 0
  | .deployContract _ => 0
  | .addAccessKey _ _ _ _ => 0
  | .addFullAccessKey _ => 0
  | .deleteKey _ => 0

/-- The tokens that executed requests took to other accounts. -/
def spent (self : AccountId) (issued : List (Nat × Batch)) : Nat :=
  (issued.map (fun x => if x.2.receiver = self then 0 else (x.2.actions.map tokens).sum)).sum

/-! ## Helper lemmas -/

theorem amount_tokens (a : PAction) : a.amount = tokens a := by cases a <;> rfl

theorem leaving_spent (self : AccountId) (l : List (Nat × Batch)) : leaving self l = spent self l := by
  have : PAction.amount = tokens := funext amount_tokens
  unfold leaving spent Batch.amount actsAmount
  rw [this]

theorem started_bare {cfg : KCfg} {ms : List Member} {n : Nat} {keys0 : UMap PublicKey Perm} {kw0 : KWorld}
    (hs : KStarted cfg ms n keys0 kw0) : kw0.w.issued = [] ∧ kw0.keys = keys0 := by
  obtain ⟨c, b, now, who, pk, _, rfl⟩ := hs
  exact ⟨rfl, rfl⟩

/-! ## Property theorems -/

/-- **C118 (nothing gets lost).** The tokens on the account, those that executed requests took to other
accounts and those of transactions signed with a full access key are together always what was there and what
arrived. Transactions signed with a full access key exist only if the account had such a key to begin with or
a request that adds one was executed. -/
theorem C118_nothing_gets_lost {cfg : KCfg} {ms : List Member} {n : Nat} {keys0 : UMap PublicKey Perm}
    {kw0 : KWorld} (hs : KStarted cfg ms n keys0 kw0) (bal0 : Nat) (evs : List PEv) :
    let pw := prun cfg ⟨kw0, bal0, []⟩ evs
    pw.bal + spent cfg.self pw.kw.w.issued + (pw.paid.map (fun x => x.2.2)).sum = bal0 + received evs ∧
    (pw.paid ≠ [] → (∃ k, keys0.get k = some .full) ∨
      ∃ id b k, (id, b) ∈ pw.kw.w.issued ∧ .addFullAccessKey k ∈ b.actions) := by
  intro pw
  refine ⟨?_, fun hp => ?_⟩
  · have h := prun_sum cfg ⟨kw0, bal0, []⟩ evs
    simp only [(started_bare hs).1, leaving_spent] at h
    exact h.trans (by simp [spent])
  · by_contra hno
    push Not at hno
    obtain ⟨h1, h2⟩ := hno
    refine hp (prun_paid evs ?_)
    intro l1 l2 he k
    obtain ⟨kevs, hk⟩ := prun_krun cfg ⟨kw0, bal0, []⟩ l1
    rw [hk]
    refine C97_no_full_access hs kevs h1 (fun id b k' hi => h2 id b k' ?_) k
    show (id, b) ∈ (prun cfg ⟨kw0, bal0, []⟩ evs).kw.w.issued
    rw [he]
    exact prun_issued l1 l2 (hk ▸ hi)

/-- **C118 (tokens leave only by confirmed requests).** If the account starts without full access keys and no
executed request adds one, then whatever left the account left by executed requests. Each of them was executed
once, was proposed by a member of the time, is exactly what was proposed, and was confirmed since then by at
least as many distinct members of their time as the account asked for when it was executed. -/
theorem C118_tokens_leave_only_by_requests {cfg : KCfg} {ms : List Member} {n : Nat}
    {keys0 : UMap PublicKey Perm} {kw0 : KWorld} (hs : KStarted cfg ms n keys0 kw0)
    (h0 : ∀ k, keys0.get k ≠ some .full) (bal0 : Nat) (evs : List PEv) :
    let pw := prun cfg ⟨kw0, bal0, []⟩ evs
    (∀ id b k, (id, b) ∈ pw.kw.w.issued → .addFullAccessKey k ∉ b.actions) →
    pw.bal + spent cfg.self pw.kw.w.issued = bal0 + received evs ∧
    (pw.kw.w.issued.map Prod.fst).Nodup ∧
    ∀ id b, (id, b) ∈ pw.kw.w.issued → ∃ l1 ev l2 a1 e1 a2 m0 q,
      pw.kw.log = l1 ++ ev :: l2 ∧ l1 ++ [ev] = a1 ++ e1 :: a2 ∧
      Adds cfg.self (run cfg.self kw0.w a1) e1 m0 id q ∧ m0 ∈ getMembers (run cfg.self kw0.w a1).c ∧
      b.receiver = q.receiver ∧ b.actions = q.actions.filterMap (Action.toP cfg.self) ∧
      ∃ conf : List Member, conf.Nodup ∧ getNumConfirmations (run cfg.self kw0.w l1).c ≤ conf.length ∧
        ∀ m ∈ conf, Sometime cfg.self (run cfg.self kw0.w a1) (e1 :: a2)
          (fun w e => Confirms cfg.self w e m id ∧ m ∈ getMembers w.c) := by
  intro pw hi
  obtain ⟨g1, g2⟩ := C118_nothing_gets_lost hs bal0 evs
  have hp : pw.paid = [] := by
    by_contra hp
    rcases g2 hp with ⟨k, hk⟩ | ⟨id, b, k, h1, h2⟩
    · exact h0 k hk
    · exact hi id b k h1 h2
  obtain ⟨kevs, hk⟩ := prun_krun cfg ⟨kw0, bal0, []⟩ evs
  have hk : pw.kw = krun cfg kw0 kevs := hk
  have hlog : pw.kw.w = run cfg.self kw0.w pw.kw.log := by rw [hk]; exact log_run hs kevs
  refine ⟨?_, ?_, ?_⟩
  · have g1 : pw.bal + spent cfg.self pw.kw.w.issued + (pw.paid.map (fun x => x.2.2)).sum =
      bal0 + received evs := g1
    rw [hp] at g1
    exact g1
  · exact C42_executed_at_most_once ⟨kw0.w, pw.kw.log, hs.started, hlog⟩
  · intro id b hm
    rw [hlog] at hm
    obtain ⟨l1, ev, l2, hl, hst⟩ := issued_at hs.started pw.kw.log hm
    obtain ⟨a1, e1, a2, m0, q, k1, k2, k3, conf, k4, k5, k6⟩ := C46_enough_distinct_members hs.started l1 ev hst
    have hmem : (id, b) ∈ (run cfg.self kw0.w (l1 ++ [ev])).issued := by
      rw [run_snoc, hst]; exact List.mem_cons_self
    obtain ⟨m', q', ⟨b1, f1, b2, j1, j2⟩, j3, j4⟩ := C42_executed_as_requested hs.started (l1 ++ [ev]) hmem
    obtain ⟨rfl, rfl, rfl⟩ := adds_unique (k1.symm.trans j1) k2 j2
    obtain ⟨rfl, rfl⟩ := adds_same k2 j2
    exact ⟨l1, ev, l2, a1, e1, a2, m0, q, hl, k1, k2, k3, j3, j4, conf, k4, k5, k6⟩

/-- The account of `demoK` with 10 tokens: the keys arrive, 3 more tokens, `k1` proposes and confirms a new
member key, `bob` confirms; `eve` and `k1` try to send tokens with their keys; a payment of 20 is not possible. -/
def demoPurse : List PEv :=
  (demoJoin.map .acc) ++ [.receive 3, .out "eve" "eve" [.transfer 1], .out "k1" "eve" [.transfer 1],
    .acc (.foreign "bob" "x" 0 true (.addRequest ⟨"dave", [.transfer 5]⟩)), .acc (.foreign "bob" "x" 0 true (.confirm 1)),
    .acc (.foreign "carol" "x" 0 true (.confirm 1)),
    .acc (.foreign "bob" "x" 0 true (.addRequest ⟨"dave", [.transfer 20]⟩)), .acc (.foreign "bob" "x" 0 true (.confirm 2)),
    .acc (.foreign "carol" "x" 0 true (.confirm 2))]

/-- The hypotheses are met: two requests were executed, 5 of 13 tokens are gone. -/
example :
    let pw := prun demoKCfg ⟨demoK, 10, []⟩ demoPurse
    pw.kw.w.issued.map Prod.fst = [1, 0] ∧ pw.bal = 8 ∧ spent "ms" pw.kw.w.issued = 5 ∧ received demoPurse = 3 ∧
    pw.paid = [] ∧ ∀ x ∈ pw.kw.w.issued, ∀ a ∈ x.2.actions, a.grants.map Prod.snd ≠ some .full := by
  decide +kernel

/-- The other case: a request adds the full access key `fk`, and with it everything can be taken. -/
def demoTaken : List PEv :=
  [.acc (.deliver 0 []), .acc (.foreign "bob" "x" 0 true (.addRequest ⟨"ms", [.addKey "full" none]⟩)),
    .acc (.foreign "bob" "x" 0 true (.confirm 0)), .acc (.foreign "carol" "x" 0 true (.confirm 0)),
    .acc (.deliver 0 []), .out "full" "eve" [.transfer 10]]

example :
    let pw := prun demoKCfg ⟨demoK, 10, []⟩ demoTaken
    pw.bal = 0 ∧ pw.paid = [("full", "eve", 10)] ∧ spent "ms" pw.kw.w.issued = 0 := by
  decide +kernel

end Verif.Multisig2
