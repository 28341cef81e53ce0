import Verif.Multisig.KeySource

/-!
# Multisig: where access keys come from (C97)
-/

namespace Verif.Multisig

open Verif

/-- **C97, multisig.** Every access key of the account was there when the contract was initialized, or
was added in a transaction signed with a full access key, or was asked for, with exactly this permission,
by a request to the account itself that was executed after at least `num_confirmations` distinct keys had
confirmed it, each of which was an access key of the account when it signed. -/
theorem C97_multisig_keys_stem_from_requests {cfg : KCfg} {n : Nat} {kw0 : KWorld}
    (hs : KStarted n kw0) (evs : List KEv) {k : PublicKey} {p : Perm}
    (hk : (krun cfg kw0 evs).keys.get k = some p) :
    kw0.keys.get k = some p ∨
    (∃ l1 k' acts hosts l2 a, evs = l1 ++ .sign k' acts hosts :: l2 ∧
      (krun cfg kw0 l1).keys.get k' = some .full ∧ a ∈ acts ∧ a.grants = some (k, p)) ∨
    ∃ l1 ev l2 id k0 q, (krun cfg kw0 evs).log = l1 ++ ev :: l2 ∧
      Sometime cfg.self kw0.w (l1 ++ [ev]) (fun w e => Adds cfg.self w e k0 id q) ∧
      q.receiver = cfg.self ∧
      ((.addKey k none ∈ q.actions ∧ p = .full) ∨
        ∃ f, .addKey k (some f) ∈ q.actions ∧ p = .fn f.receiver (String.intercalate "," f.methods)) ∧
      ∃ conf : List PublicKey, conf.Nodup ∧
        getNumConfirmations (run cfg.self kw0.w l1).c ≤ conf.length ∧
        ∀ k ∈ conf, SignedIn cfg kw0 evs k ∧
          Sometime cfg.self kw0.w (l1 ++ [ev]) (fun w e => Confirms cfg.self w e k id) := by
  rcases (source_run hs evs).2 k p hk with h | ⟨id, b, a, h1, h2, h3, h4⟩ |
    ⟨l1, k', acts, hosts, l2, a, h1, h2, h3, h4⟩
  · exact .inl h
  · right; right
    obtain ⟨l1, ev, l2, g1, g2, g3⟩ := C45_confirmations_were_authorised_partial hs evs h1
    obtain ⟨k0, q, g7, g9, g10, _⟩ := C42_executed_as_requested hs.1 (l1 ++ [ev])
      (id := id) (b := b) (by rw [run_snoc, g2]; exact List.mem_cons_self)
    refine ⟨l1, ev, l2, id, k0, q, g1, g7, g9.symm.trans h2, ?_, g3⟩
    rw [g10] at h3
    obtain ⟨x, hx, hxa⟩ := List.mem_filterMap.mp h3
    cases x with
    | addKey k1 f =>
      cases f with
      | none => cases hxa; cases h4; exact .inl ⟨hx, rfl⟩
      | some f => cases hxa; cases h4; exact .inr ⟨f, hx, rfl⟩
    | deleteKey m => cases hxa; cases h4
    | transfer x => cases hxa; cases h4
    | createAccount => cases hxa; cases h4
    | deployContract c => cases hxa; cases h4
    | functionCall m a d g => cases hxa; cases h4
    | setNumConfirmations n => cases hxa
    | setActiveRequestsLimit n => cases hxa
  · exact .inr (.inl ⟨l1, k', acts, hosts, l2, a, h1, h2, h3, h4⟩)

/-- **C97, full access.** If the account has no full access key in the beginning and no executed request
asks for one, then it never has one. -/
theorem C97_multisig_no_full_access {cfg : KCfg} {n : Nat} {kw0 : KWorld} (hs : KStarted n kw0)
    (evs : List KEv) (h0 : ∀ k, kw0.keys.get k ≠ some .full)
    (hi : ∀ id b k, (id, b) ∈ (krun cfg kw0 evs).w.issued → .addFullAccessKey k ∉ b.actions)
    (k : PublicKey) : (krun cfg kw0 evs).keys.get k ≠ some .full := by
  induction hl : evs.length using Nat.strong_induction_on generalizing evs k with
  | _ len ih =>
    intro hk
    rcases (source_run hs evs).2 k .full hk with h | ⟨id, b, a, h1, h2, h3, h4⟩ |
      ⟨l1, k', acts, hosts, l2, a, h1, h2, h3, h4⟩
    · exact h0 k h
    · have : a = .addFullAccessKey k := by
        cases a <;> simp only [PAction.grants, reduceCtorEq, Option.some.injEq, Prod.mk.injEq, and_false,
          and_true] at h4
        rw [h4]
      subst this
      exact hi id b k h1 h3
    · refine ih l1.length (by rw [← hl, h1]; simp) l1 (fun id b k h => hi id b k ?_) k' rfl h2
      rw [h1]
      exact issued_prefix h

/-- Give a full access key to `k9`. -/
def demoGrant : Request := ⟨"ms", [.addKey "k9" none]⟩

def demoGrantCfg : KCfg :=
  ⟨"ms", fun m a => if m = "add_request" ∧ a = [9] then some (.addRequest demoGrant) else demoDecode m a⟩

/-- Two keys ask for it and confirm; the batch arrives. -/
def demoGrantRun : List KEv :=
  [demoTx "k1" "add_request" 9, demoTx "k1" "confirm" 0, demoTx "k2" "confirm" 0, .deliver 0 []]

example : KStarted 2 demoKeys ∧ (krun demoGrantCfg demoKeys demoGrantRun).keys.get "k9" = some .full ∧
    (krun demoGrantCfg demoKeys (demoGrantRun.take 3)).keys.get "k9" = none :=
  ⟨demoKeys_started, by decide +kernel, by decide +kernel⟩

/-- In the history of C45 (a key is removed) no request adds a full access key. -/
example : (∀ k, demoKeys.keys.get k ≠ some .full) ∧
    (krun demoKCfg demoKeys demoRemoval).w.issued.map (fun x => x.2.actions) = [[.deleteKey "k1"]] := by
  refine ⟨fun k => ?_, by decide +kernel⟩
  simp only [demoKeys, UMap.get_insert, demoPerm]
  split
  · simp
  · split
    · simp
    · split
      · simp
      · simp [UMap.get_empty]

end Verif.Multisig
