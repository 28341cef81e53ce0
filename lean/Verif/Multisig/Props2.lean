import Verif.Multisig.Keys

/-!
# The multisig contract: removed keys (C45)

As stated, C45 is false of the code: when a key is deleted, the requests made by it are removed, but
confirmations that it gave to requests of others stay and are counted (multisig/src/lib.rs:200-215).
-/

namespace Verif.Multisig

open Verif

/-- The access key recommended in multisig/README.md:153. -/
def demoPerm : Perm := .fn "ms" "add_request,delete_request,confirm"

/-- Arguments are one byte that picks a call. -/
def demoDecode : String → Bytes → Option Call
  | "add_request", [0] => some (.addRequest demoPay)
  | "add_request", [1] => some (.addRequest demoDrop)
  | "confirm", [b] => some (.confirm b.toNat)
  | "delete_request", [b] => some (.deleteRequest b.toNat)
  | _, _ => none

def demoKCfg : KCfg := ⟨"ms", demoDecode⟩

/-- Three keys, two confirmations needed. -/
def demoKeys : KWorld :=
  ⟨demoStart, ((UMap.empty.insert "k1" demoPerm).insert "k2" demoPerm).insert "k3" demoPerm, [], []⟩

theorem demoKeys_started : KStarted 2 demoKeys := ⟨demo_started, rfl, rfl⟩

/-- A transaction that calls one method. -/
def demoTx (k : PublicKey) (m : String) (b : UInt8) : KEv :=
  .sign k [.functionCall m [b] 0 0] [true]

/-- `k3` proposes a payment and `k1` confirms it; then `k2` and `k3` remove `k1`. -/
def demoRemoval : List KEv :=
  [demoTx "k3" "add_request" 0, demoTx "k1" "confirm" 0, demoTx "k3" "add_request" 1,
   demoTx "k2" "confirm" 1, demoTx "k3" "confirm" 1, .deliver 0 []]

/-- **C45 is false.** There is a history in which a request executes although the keys that are access
keys of the account at that moment and have confirmed the request are fewer than
`num_confirmations`: a confirmation by a key that has since been deleted is counted. -/
theorem C45_refuted :
    ∃ (cfg : KCfg) (n : Nat) (kw0 : KWorld) (evs : List KEv) (ev : KEv) (id : Nat) (b : Batch),
      KStarted n kw0 ∧
      (krun cfg kw0 (evs ++ [ev])).w.issued = (id, b) :: (krun cfg kw0 evs).w.issued ∧
      ∀ keys : List PublicKey, keys.Nodup →
        (∀ k ∈ keys, (∃ p, (krun cfg kw0 evs).keys.get k = some p) ∧
          Sometime cfg.self kw0.w (krun cfg kw0 (evs ++ [ev])).log
            (fun w e => Confirms cfg.self w e k id)) →
        keys.length < getNumConfirmations (krun cfg kw0 evs).w.c := by
  refine ⟨demoKCfg, 2, demoKeys, demoRemoval, demoTx "k2" "confirm" 0, 0, ⟨"bob", [.transfer 5]⟩,
    demoKeys_started, by decide +kernel, ?_⟩
  intro keys hnd hk
  have hall : ∀ k ∈ keys, k = "k2" := by
    intro k hmem
    obtain ⟨⟨p, hp⟩, hc⟩ := hk k hmem
    have h1 := confirmations_of hc
    have h2 : confirmations demoKCfg.self demoKeys.w
        (krun demoKCfg demoKeys (demoRemoval ++ [demoTx "k2" "confirm" 0])).log =
        [("k1", 0), ("k2", 1), ("k3", 1), ("k2", 0)] := by decide +kernel
    rw [h2] at h1
    have h3 : (krun demoKCfg demoKeys demoRemoval).keys.get "k1" = none := by decide +kernel
    simp only [List.mem_cons, Prod.mk.injEq, List.not_mem_nil, or_false] at h1
    rcases h1 with ⟨rfl, _⟩ | ⟨_, h⟩ | ⟨_, h⟩ | ⟨rfl, _⟩
    · rw [h3] at hp; cases hp
    · cases h
    · cases h
    · rfl
  have hn : getNumConfirmations (krun demoKCfg demoKeys demoRemoval).w.c = 2 := by decide +kernel
  rw [hn]
  match keys, hnd, hall with
  | [], _, _ => decide
  | [_], _, _ => simp
  | a :: b :: t, hnd, hall =>
    exfalso
    have ha := hall a (by simp)
    have hb := hall b (by simp)
    subst ha hb
    simp at hnd

/-- **C45, what holds.** Whenever the actions of a request were issued, the request had at least
`num_confirmations` confirmations (value at that time) by distinct keys, each of which was an access
key of the account, permitting the transaction, when it signed the transaction from which the
confirmation stems. Missing from C45: that the keys are still access keys at the time of execution. -/
theorem C45_confirmations_were_authorised_partial {cfg : KCfg} {n : Nat} {kw0 : KWorld}
    (hs : KStarted n kw0) (evs : List KEv) {id : Nat} {b : Batch}
    (hi : (id, b) ∈ (krun cfg kw0 evs).w.issued) :
    ∃ l1 ev l2, (krun cfg kw0 evs).log = l1 ++ ev :: l2 ∧
      (step cfg.self (run cfg.self kw0.w l1) ev).issued =
        (id, b) :: (run cfg.self kw0.w l1).issued ∧
      ∃ keys : List PublicKey, keys.Nodup ∧
        getNumConfirmations (run cfg.self kw0.w l1).c ≤ keys.length ∧
        ∀ k ∈ keys, SignedIn cfg kw0 evs k ∧
          Sometime cfg.self kw0.w (l1 ++ [ev]) (fun w e => Confirms cfg.self w e k id) := by
  have hk := kinv_run (cfg := cfg) hs evs
  rw [hk.w] at hi
  obtain ⟨l1, ev, l2, hl, hst⟩ := issued_at hs.1 _ hi
  refine ⟨l1, ev, l2, hl, hst, ?_⟩
  obtain ⟨m1, e1, m2, k0, q, hm, ha, keys, h1, h2, h3⟩ :=
    C41_enough_distinct_confirmations hs.1 l1 ev hst
  refine ⟨keys, h1, h2, fun k hkm => ?_⟩
  obtain ⟨a1, e, a2, h4, h5⟩ := h3 k hkm
  have h6 : l1 ++ [ev] = (m1 ++ a1) ++ e :: a2 := by rw [hm, h4]; simp
  refine ⟨?_, m1 ++ a1, e, a2, h6, by rw [run_append]; exact h5⟩
  obtain ⟨att, host, c, he⟩ := confirms_signer h5
  refine hk.signed k att host c ?_
  rw [hl, ← he]
  have : e ∈ l1 ++ [ev] := by rw [h6]; simp
  rcases List.mem_append.mp this with h | h
  · exact List.mem_append_left _ h
  · rw [List.mem_singleton] at h; rw [h]; simp

/-- The hypotheses are met by the history above. -/
example : KStarted 2 demoKeys ∧ (0, (⟨"bob", [.transfer 5]⟩ : Batch)) ∈
    (krun demoKCfg demoKeys (demoRemoval ++ [demoTx "k2" "confirm" 0])).w.issued :=
  ⟨demoKeys_started, by decide +kernel⟩

/-- **C45, purge.** When a request that deletes a key executes, no request made by that key stays
pending, and the key's counter is zero. -/
theorem C45_deleted_key_loses_its_requests {self : AccountId} {n : Nat} {w0 : World}
    (hs : Started n w0) (evs : List Ev) (ev : Ev) {id : Nat} {b : Batch} {k : PublicKey}
    (hi : (step self (run self w0 evs) ev).issued = (id, b) :: (run self w0 evs).issued)
    (hd : .deleteKey k ∈ b.actions) :
    numPending (step self (run self w0 evs) ev).c k = 0 ∧
    getNumRequestsPk (step self (run self w0 evs) ev).c k = 0 := by
  have hne : (step self (run self w0 evs) ev).issued ≠ (run self w0 evs).issued := by
    intro h; rw [h] at hi; exact absurd (congrArg List.length hi) (by simp)
  obtain ⟨k1, host, c, r, b', he, hr, hb, hst⟩ := issue_step hne
  have hid : r.id = id ∧ b' = b := by
    rw [hst] at hi; simp only [List.cons.injEq, Prod.mk.injEq] at hi; tauto
  obtain ⟨rfl, rfl⟩ := hid
  obtain ⟨k', q, h1, h2, h3, s1, st, h4, h5, h6, h7⟩ := issue_origin hs he hr hb
  have hm : MInv (step self (run self w0 evs) ev).c :=
    minv_step ev (minv_run (self := self) evs (started_minv hs))
  have hz : numPending (step self (run self w0 evs) ev).c k = 0 := by
    rw [← pending_eq]
    apply Book.pending_zero
    rw [hst]
    show ∀ id st, r.c.book.requests.get id = some st → st.signer ≠ k
    rw [h7]
    apply apply_purged
    rw [h2] at hd
    obtain ⟨a, ha, hp⟩ := List.mem_filterMap.mp hd
    cases a with
    | deleteKey k2 => cases hp; exact ha
    | addKey k2 p => cases p <;> cases hp
    | _ => cases hp
  refine ⟨hz, ?_⟩
  have := hm.book.cnt k
  rw [pending_eq, hz] at this
  exact this

/-- `k1` proposes a payment; then `k2` and `k3` remove `k1`. -/
example :
    let evs : List Ev := [.call "ms" "k1" 0 true (.addRequest demoPay),
      .call "ms" "k2" 0 true (.addRequestAndConfirm demoDrop)]
    (step "ms" (run "ms" demoStart evs) (.call "ms" "k3" 0 true (.confirm 1))).issued =
      (1, ⟨"ms", [.deleteKey "k1"]⟩) :: (run "ms" demoStart evs).issued ∧
    numPending (run "ms" demoStart evs).c "k1" = 1 := by decide +kernel

/-! ## C62: a key without access is powerless -/

/-- **C62.** While `k` is not an access key of the account and no batch that stems from a transaction
of `k` is under way, no call with `k` reaches the contract from the account: in particular `k` makes
no request, confirms nothing and deletes nothing. -/
theorem C62_removed_key_is_powerless {cfg : KCfg} (kw : KWorld) (k : PublicKey) (evs : List KEv)
    (hq : ∀ p ∈ kw.queue, p.1 ≠ k)
    (hk : ∀ l1 l2, evs = l1 ++ l2 → (krun cfg kw l1).keys.get k = none) :
    ∃ l, (krun cfg kw evs).log = kw.log ++ l ∧ (krun cfg kw evs).w = run cfg.self kw.w l ∧
      ∀ att host c, Ev.call cfg.self k att host c ∉ l := by
  have main : (∃ l, (krun cfg kw evs).log = kw.log ++ l ∧
      (krun cfg kw evs).w = run cfg.self kw.w l ∧
      ∀ att host c, Ev.call cfg.self k att host c ∉ l) ∧
      ∀ p ∈ (krun cfg kw evs).queue, p.1 ≠ k := by
    induction evs using List.reverseRecOn with
    | nil => exact ⟨⟨[], by simp [krun], rfl, by simp⟩, hq⟩
    | append_singleton l ev ih =>
      obtain ⟨⟨m, h1, h2, h3⟩, h4⟩ := ih (fun l1 l2 h => hk l1 (l2 ++ [ev]) (by rw [h]; simp))
      have hkl := hk l [ev] rfl
      have quiet : ∀ kw', krun cfg kw (l ++ [ev]) = kw' → kw'.w = (krun cfg kw l).w →
          kw'.log = (krun cfg kw l).log → (∀ p ∈ kw'.queue, p ∈ (krun cfg kw l).queue) →
          (∃ l', (krun cfg kw (l ++ [ev])).log = kw.log ++ l' ∧
            (krun cfg kw (l ++ [ev])).w = run cfg.self kw.w l' ∧
            ∀ att host c, Ev.call cfg.self k att host c ∉ l') ∧
          ∀ p ∈ (krun cfg kw (l ++ [ev])).queue, p.1 ≠ k := by
        intro kw' he g1 g2 g3
        rw [he]
        exact ⟨⟨m, g2.trans h1, g1.trans h2, h3⟩, fun p hp => h4 p (g3 p hp)⟩
      have batch : ∀ kw1 kw' pk hosts acts, krun cfg kw (l ++ [ev]) = kw' →
          kw1.w = (krun cfg kw l).w → kw1.log = (krun cfg kw l).log →
          (∀ p ∈ kw1.queue, p ∈ (krun cfg kw l).queue) →
          runBatch cfg pk kw1 hosts acts = some kw' → pk ≠ k →
          (∃ l', (krun cfg kw (l ++ [ev])).log = kw.log ++ l' ∧
            (krun cfg kw (l ++ [ev])).w = run cfg.self kw.w l' ∧
            ∀ att host c, Ev.call cfg.self k att host c ∉ l') ∧
          ∀ p ∈ (krun cfg kw (l ++ [ev])).queue, p.1 ≠ k := by
        intro kw1 kw' pk hosts acts he g1 g2 g3 hb hne
        obtain ⟨⟨x, f1, f2, f3⟩, f4⟩ := runBatch_facts cfg pk acts kw1 kw' hosts hb
        rw [he]
        refine ⟨⟨m ++ x, ?_, ?_, ?_⟩, ?_⟩
        · rw [f1, g2, h1]; simp
        · rw [f2, g1, h2, run_append]
        · intro att host c hmem
          rcases List.mem_append.mp hmem with hmem | hmem
          · exact h3 _ _ _ hmem
          · exact hne (f3 _ _ _ _ _ hmem).symm
        · intro p hp
          rcases f4 p hp with hp | hp
          · exact h4 p (g3 p hp)
          · rw [hp]; exact hne
      cases ev with
      | sign pk acts hosts =>
        have hrun := krun_snoc cfg kw l (.sign pk acts hosts)
        simp only [kstep] at hrun
        cases hkk : (krun cfg kw l).keys.get pk with
        | none => rw [hkk] at hrun; exact quiet _ hrun rfl rfl (fun _ h => h)
        | some p =>
          rw [hkk] at hrun
          simp only at hrun
          have hne : pk ≠ k := by rintro rfl; rw [hkl] at hkk; cases hkk
          split at hrun
          · cases hb : runBatch cfg pk (krun cfg kw l) hosts acts with
            | none => rw [hb] at hrun; exact quiet _ hrun rfl rfl (fun _ h => h)
            | some kw' =>
              rw [hb] at hrun
              exact batch (krun cfg kw l) kw' pk hosts acts hrun rfl rfl (fun _ h => h) hb hne
          · exact quiet _ hrun rfl rfl (fun _ h => h)
      | deliver i hosts =>
        have hrun := krun_snoc cfg kw l (.deliver i hosts)
        simp only [kstep] at hrun
        cases hqq : (krun cfg kw l).queue[i]? with
        | none => rw [hqq] at hrun; exact quiet _ hrun rfl rfl (fun _ h => h)
        | some x =>
          obtain ⟨pk, b⟩ := x
          rw [hqq] at hrun
          simp only at hrun
          have hne : pk ≠ k := h4 (pk, b) (List.mem_of_getElem? hqq)
          cases hb : runBatch cfg pk
              { krun cfg kw l with queue := (krun cfg kw l).queue.eraseIdx i } hosts b.actions with
          | none =>
            rw [hb] at hrun
            exact quiet _ hrun rfl rfl (fun _ h => List.mem_of_mem_eraseIdx h)
          | some kw' =>
            rw [hb] at hrun
            exact batch { krun cfg kw l with queue := (krun cfg kw l).queue.eraseIdx i } kw' pk hosts
              b.actions hrun rfl rfl (fun _ h => List.mem_of_mem_eraseIdx h) hb hne
      | foreign who pk att host c =>
        have hrun := krun_snoc cfg kw l (.foreign who pk att host c)
        simp only [kstep] at hrun
        by_cases hw : who = cfg.self
        · rw [if_pos hw] at hrun; exact quiet _ hrun rfl rfl (fun _ h => h)
        · rw [if_neg hw] at hrun
          rw [hrun]
          refine ⟨⟨m ++ [.call who pk att host c], ?_, ?_, ?_⟩, h4⟩
          · show (krun cfg kw l).log ++ _ = _
            rw [h1]; simp
          · simp only; rw [run_snoc, h2]
          · intro att' host' c' hmem
            rcases List.mem_append.mp hmem with hmem | hmem
            · exact h3 _ _ _ hmem
            · rw [List.mem_singleton] at hmem; cases hmem; exact hw rfl
      | tick dt =>
        have hrun := krun_snoc cfg kw l (.tick dt)
        simp only [kstep] at hrun
        rw [hrun]
        refine ⟨⟨m ++ [.tick dt], ?_, ?_, ?_⟩, h4⟩
        · show (krun cfg kw l).log ++ _ = _
          rw [h1]; simp
        · simp only; rw [run_snoc, h2]
        · intro att' host' c' hmem
          rcases List.mem_append.mp hmem with hmem | hmem
          · exact h3 _ _ _ hmem
          · rw [List.mem_singleton] at hmem; cases hmem
  exact main.1

/-- The removed key `k1` meets the hypotheses, and its attempt to confirm has no effect. -/
example : (∀ p ∈ (krun demoKCfg demoKeys demoRemoval).queue, p.1 ≠ "k1") ∧
    (∀ l1 l2, [demoTx "k1" "confirm" 0] = l1 ++ l2 →
      (krun demoKCfg (krun demoKCfg demoKeys demoRemoval) l1).keys.get "k1" = none) := by
  refine ⟨by decide +kernel, ?_⟩
  intro l1 l2 h
  match l1, h with
  | [], _ => decide +kernel
  | [a], h =>
    simp only [List.cons_append, List.nil_append, List.cons.injEq] at h
    obtain ⟨rfl, _⟩ := h
    decide +kernel
  | a :: b :: t, h => simp at h

end Verif.Multisig
