import Verif.Common.Perm
import Verif.Multisig.Props

/-!
# The access keys of the multisig account

`Multisig.World` lets anybody call with any signer key. Here the account's access keys are part of the
state: transactions must be signed with a key that permits them, and the batches that the contract
sends to its own account are delivered later, at an arbitrary moment, and add and delete keys or call
the contract again (with the signer key of the transaction at their origin).

Not modelled: replacing the code of the account (a batch with `DeployContract` to itself is treated as
failing), allowances, and the effects on other accounts.
-/

namespace Verif.Multisig

open Verif

/-- State of the account. -/
structure KWorld where
  w : World
  keys : UMap PublicKey Perm
  /-- batches to the account itself that are under way, with the signer key of their origin -/
  queue : List (PublicKey × Batch)
  /-- history variable: the calls of the contract so far, oldest first -/
  log : List Ev

/-- Fixed surroundings: the account, and how method names and arguments are understood by the
contract (`near_bindgen` dispatch and JSON decoding). -/
structure KCfg where
  self : AccountId
  decode : String → Bytes → Option Call

/-- The batches that go to the account itself. -/
def enqueue (self : AccountId) (pk : PublicKey) (r : Res) (q : List (PublicKey × Batch)) :
    List (PublicKey × Batch) :=
  match r.batch with
  | some b => if b.receiver = self then q ++ [(pk, b)] else q
  | none => q

/-- Run the actions of a receipt for the account itself; `none`: an action fails, so that the receipt
has no effect. `hosts` supplies for each call of the contract whether the host accepts its batch. -/
def runBatch (cfg : KCfg) (pk : PublicKey) : KWorld → List Bool → List PAction → Option KWorld
  | kw, _, [] => some kw
  | kw, hs, .transfer _ :: t => runBatch cfg pk kw hs t
  | _, _, .createAccount :: _ => none
  | _, _, .deployContract _ :: _ => none
  | kw, hs, .addAccessKey k _ r ms :: t =>
    if kw.keys.get k = none then runBatch cfg pk { kw with keys := kw.keys.insert k (.fn r ms) } hs t
    else none
  | kw, hs, .addFullAccessKey k :: t =>
    if kw.keys.get k = none then runBatch cfg pk { kw with keys := kw.keys.insert k .full } hs t
    else none
  | kw, hs, .deleteKey k :: t =>
    if kw.keys.get k = none then none
    else runBatch cfg pk { kw with keys := kw.keys.remove k } hs t
  | kw, hs, .functionCall m a d _ :: t =>
    match cfg.decode m a with
    | none => none
    | some c =>
      match exec (mkEnv cfg.self kw.w cfg.self pk d (hs.headD true)) kw.w.c c with
      | .error _ => none
      | .ok r =>
        runBatch cfg pk
          { kw with
            w := step cfg.self kw.w (.call cfg.self pk d (hs.headD true) c)
            queue := enqueue cfg.self pk r kw.queue
            log := kw.log ++ [.call cfg.self pk d (hs.headD true) c] } hs.tail t

/-- Whether a key with this permission may sign these actions for the account itself. -/
def permAllows (self : AccountId) (p : Perm) (acts : List PAction) : Bool :=
  match p, acts with
  | .full, _ => true
  | p, [.functionCall m _ d _] => p.permits self m && d = 0
  | _, _ => false

/-- Events. -/
inductive KEv where
  /-- a transaction to the account itself, signed with `pk` -/
  | sign (pk : PublicKey) (acts : List PAction) (hosts : List Bool)
  /-- the `i`-th batch under way arrives -/
  | deliver (i : Nat) (hosts : List Bool)
  /-- a call by another account; its transaction was signed with `pk` -/
  | foreign (who : AccountId) (pk : PublicKey) (attached : Nat) (host : Bool) (c : Call)
  | tick (dt : Nat)

/-- The transaction is signed with a key of the account that permits it. -/
def Signs (cfg : KCfg) (kw : KWorld) (pk : PublicKey) (acts : List PAction) : Prop :=
  ∃ p, kw.keys.get pk = some p ∧ permAllows cfg.self p acts = true

/-- One event. -/
def kstep (cfg : KCfg) (kw : KWorld) : KEv → KWorld
  | .sign pk acts hosts =>
    match kw.keys.get pk with
    | none => kw
    | some p =>
      if permAllows cfg.self p acts = true then (runBatch cfg pk kw hosts acts).getD kw else kw
  | .deliver i hosts =>
    match kw.queue[i]? with
    | none => kw
    | some (pk, b) =>
      let kw' := { kw with queue := kw.queue.eraseIdx i }
      (runBatch cfg pk kw' hosts b.actions).getD kw'
  | .foreign who pk att host c =>
    if who = cfg.self then kw
    else { kw with w := step cfg.self kw.w (.call who pk att host c)
                   log := kw.log ++ [.call who pk att host c] }
  | .tick dt => { kw with w := step cfg.self kw.w (.tick dt), log := kw.log ++ [.tick dt] }

/-- A history. -/
def krun (cfg : KCfg) (kw : KWorld) : List KEv → KWorld
  | [] => kw
  | ev :: t => krun cfg (kstep cfg kw ev) t

/-- The account right after the multisig was initialized, with some access keys. -/
def KStarted (n : Nat) (kw0 : KWorld) : Prop := Started n kw0.w ∧ kw0.queue = [] ∧ kw0.log = []

theorem krun_append (cfg : KCfg) (kw : KWorld) (l1 l2 : List KEv) :
    krun cfg kw (l1 ++ l2) = krun cfg (krun cfg kw l1) l2 := by
  induction l1 generalizing kw with
  | nil => rfl
  | cons h t ih => exact ih _

theorem krun_snoc (cfg : KCfg) (kw : KWorld) (l : List KEv) (ev : KEv) :
    krun cfg kw (l ++ [ev]) = kstep cfg (krun cfg kw l) ev := by
  rw [krun_append]; rfl

/-- Somewhere in the history a transaction was signed with `k` while `k` was an access key of the
account that permitted it. -/
def SignedIn (cfg : KCfg) (kw0 : KWorld) (evs : List KEv) (k : PublicKey) : Prop :=
  ∃ l1 acts hosts l2, evs = l1 ++ .sign k acts hosts :: l2 ∧ Signs cfg (krun cfg kw0 l1) k acts

theorem SignedIn.snoc {cfg : KCfg} {kw0 : KWorld} {evs : List KEv} {k : PublicKey}
    (h : SignedIn cfg kw0 evs k) (ev : KEv) : SignedIn cfg kw0 (evs ++ [ev]) k := by
  obtain ⟨l1, a, hs, l2, rfl, hp⟩ := h
  exact ⟨l1, a, hs, l2 ++ [ev], by simp, hp⟩

/-- What running a batch does: the log is extended by calls signed with `pk`, and so is the queue. -/
theorem runBatch_facts (cfg : KCfg) (pk : PublicKey) (acts : List PAction) (kw kw' : KWorld)
    (hosts : List Bool) (h : runBatch cfg pk kw hosts acts = some kw') :
    (∃ l, kw'.log = kw.log ++ l ∧ kw'.w = run cfg.self kw.w l ∧
      ∀ who k att host c, Ev.call who k att host c ∈ l → k = pk) ∧
    (∀ p ∈ kw'.queue, p ∈ kw.queue ∨ p.1 = pk) := by
  induction acts generalizing kw hosts with
  | nil =>
    simp only [runBatch, Option.some.injEq] at h
    subst h
    exact ⟨⟨[], by simp, rfl, by simp⟩, fun p hp => .inl hp⟩
  | cons a t ih =>
    cases a with
    | transfer x => exact ih kw hosts h
    | createAccount => cases h
    | deployContract c => cases h
    | addAccessKey k al r ms =>
      simp only [runBatch] at h
      split at h
      · exact ih { kw with keys := kw.keys.insert k (.fn r ms) } _ h
      · cases h
    | addFullAccessKey k =>
      simp only [runBatch] at h
      split at h
      · exact ih { kw with keys := kw.keys.insert k .full } _ h
      · cases h
    | deleteKey k =>
      simp only [runBatch] at h
      split at h
      · cases h
      · exact ih { kw with keys := kw.keys.remove k } _ h
    | functionCall m a d g =>
      simp only [runBatch] at h
      split at h
      · cases h
      · rename_i c hc
        split at h
        · cases h
        · rename_i r hr
          obtain ⟨⟨l, h1, h2, h3⟩, h4⟩ := ih _ _ h
          refine ⟨⟨.call cfg.self pk d (hosts.headD true) c :: l, ?_, ?_, ?_⟩, ?_⟩
          · rw [h1]; simp
          · rw [h2]; rfl
          · intro who k att host c' hmem
            rcases List.mem_cons.mp hmem with he | hmem
            · cases he; rfl
            · exact h3 who k att host c' hmem
          · intro p hp
            rcases h4 p hp with hp | hp
            · simp only [enqueue] at hp
              split at hp
              · split at hp
                · rcases List.mem_append.mp hp with hp | hp
                  · exact .inl hp
                  · right; rw [List.mem_singleton] at hp; rw [hp]
                · exact .inl hp
              · exact .inl hp
            · exact .inr hp

/-- The account's contract is in the state given by the log, and every call by the account itself
stems from a transaction signed with a key of the account. -/
structure KInv (cfg : KCfg) (kw0 : KWorld) (evs : List KEv) : Prop where
  w : (krun cfg kw0 evs).w = run cfg.self kw0.w (krun cfg kw0 evs).log
  signed : ∀ k att host c, Ev.call cfg.self k att host c ∈ (krun cfg kw0 evs).log →
    SignedIn cfg kw0 evs k
  queued : ∀ p ∈ (krun cfg kw0 evs).queue, SignedIn cfg kw0 evs p.1

theorem kinv_run {cfg : KCfg} {n : Nat} {kw0 : KWorld} (hs : KStarted n kw0) (evs : List KEv) :
    KInv cfg kw0 evs := by
  induction evs using List.reverseRecOn with
  | nil =>
    refine ⟨?_, ?_, ?_⟩
    · simp only [krun]; rw [hs.2.2]; rfl
    · intro k att host c h; simp only [krun] at h; rw [hs.2.2] at h; cases h
    · intro p h; simp only [krun] at h; rw [hs.2.1] at h; cases h
  | append_singleton l ev ih =>
    have quiet : ∀ kw', krun cfg kw0 (l ++ [ev]) = kw' → kw'.w = (krun cfg kw0 l).w →
        kw'.log = (krun cfg kw0 l).log → (∀ p ∈ kw'.queue, p ∈ (krun cfg kw0 l).queue) →
        KInv cfg kw0 (l ++ [ev]) := by
      intro kw' he h1 h2 h3
      refine ⟨?_, ?_, ?_⟩
      · rw [he, h1, h2]; exact ih.w
      · intro k att host c hm; rw [he, h2] at hm; exact (ih.signed k att host c hm).snoc ev
      · intro p hp; rw [he] at hp; exact (ih.queued p (h3 p hp)).snoc ev
    have batch : ∀ kw1 kw' pk hosts acts, krun cfg kw0 (l ++ [ev]) = kw' →
        kw1.w = (krun cfg kw0 l).w → kw1.log = (krun cfg kw0 l).log →
        (∀ p ∈ kw1.queue, p ∈ (krun cfg kw0 l).queue) →
        runBatch cfg pk kw1 hosts acts = some kw' → SignedIn cfg kw0 (l ++ [ev]) pk →
        KInv cfg kw0 (l ++ [ev]) := by
      intro kw1 kw' pk hosts acts he g1 g2 g3 hb hsg
      obtain ⟨⟨m, h1, h2, h3⟩, h4⟩ := runBatch_facts cfg pk acts kw1 kw' hosts hb
      refine ⟨?_, ?_, ?_⟩
      · rw [he, h1, h2, g1, g2, run_append, ih.w]
      · intro k att host c hm
        rw [he, h1, g2] at hm
        rcases List.mem_append.mp hm with hm | hm
        · exact (ih.signed k att host c hm).snoc ev
        · rw [h3 _ _ _ _ _ hm]; exact hsg
      · intro p hp
        rw [he] at hp
        rcases h4 p hp with hp | hp
        · exact (ih.queued p (g3 p hp)).snoc ev
        · rw [hp]; exact hsg
    cases ev with
    | sign pk acts hosts =>
      have hrun := krun_snoc cfg kw0 l (.sign pk acts hosts)
      simp only [kstep] at hrun
      cases hk : (krun cfg kw0 l).keys.get pk with
      | none => rw [hk] at hrun; exact quiet _ hrun rfl rfl (fun _ h => h)
      | some p =>
        rw [hk] at hrun
        simp only at hrun
        by_cases hp : permAllows cfg.self p acts = true
        · rw [if_pos hp] at hrun
          cases hb : runBatch cfg pk (krun cfg kw0 l) hosts acts with
          | none => rw [hb] at hrun; exact quiet _ hrun rfl rfl (fun _ h => h)
          | some kw' =>
            rw [hb] at hrun
            exact batch _ kw' pk hosts acts hrun rfl rfl (fun _ h => h) hb
              ⟨l, acts, hosts, [], rfl, p, hk, hp⟩
        · rw [if_neg hp] at hrun; exact quiet _ hrun rfl rfl (fun _ h => h)
    | deliver i hosts =>
      have hrun := krun_snoc cfg kw0 l (.deliver i hosts)
      simp only [kstep] at hrun
      cases hq : (krun cfg kw0 l).queue[i]? with
      | none => rw [hq] at hrun; exact quiet _ hrun rfl rfl (fun _ h => h)
      | some x =>
        obtain ⟨pk, b⟩ := x
        rw [hq] at hrun
        simp only at hrun
        have hmem : (pk, b) ∈ (krun cfg kw0 l).queue := List.mem_of_getElem? hq
        cases hb : runBatch cfg pk { krun cfg kw0 l with queue := (krun cfg kw0 l).queue.eraseIdx i }
            hosts b.actions with
        | none =>
          rw [hb] at hrun
          exact quiet _ hrun rfl rfl (fun _ h => List.mem_of_mem_eraseIdx h)
        | some kw' =>
          rw [hb] at hrun
          exact batch { krun cfg kw0 l with queue := (krun cfg kw0 l).queue.eraseIdx i } kw' pk hosts b.actions hrun rfl rfl
            (fun _ h => List.mem_of_mem_eraseIdx h) hb ((ih.queued _ hmem).snoc _)
    | foreign who pk att host c =>
      have hrun := krun_snoc cfg kw0 l (.foreign who pk att host c)
      simp only [kstep] at hrun
      by_cases hw : who = cfg.self
      · rw [if_pos hw] at hrun; exact quiet _ hrun rfl rfl (fun _ h => h)
      · rw [if_neg hw] at hrun
        refine ⟨?_, ?_, ?_⟩
        · rw [hrun]
          simp only
          rw [run_snoc, ← ih.w]
        · intro k att' host' c' hm
          rw [hrun] at hm
          rcases List.mem_append.mp hm with hm | hm
          · exact (ih.signed _ _ _ _ hm).snoc _
          · rw [List.mem_singleton] at hm; cases hm; exact absurd rfl hw
        · intro p hp; rw [hrun] at hp; exact (ih.queued p hp).snoc _
    | tick dt =>
      have hrun := krun_snoc cfg kw0 l (.tick dt)
      simp only [kstep] at hrun
      refine ⟨?_, ?_, ?_⟩
      · rw [hrun]
        simp only
        rw [run_snoc, ← ih.w]
      · intro k att' host' c' hm
        rw [hrun] at hm
        rcases List.mem_append.mp hm with hm | hm
        · exact (ih.signed _ _ _ _ hm).snoc _
        · rw [List.mem_singleton] at hm; cases hm
      · intro p hp; rw [hrun] at hp; exact (ih.queued p hp).snoc _

theorem confirms_signer {self : AccountId} {w : World} {ev : Ev} {k : PublicKey} {id : Nat}
    (h : Confirms self w ev k id) : ∃ att host c, ev = .call self k att host c := by
  obtain ⟨host, r, ⟨h, _⟩ | ⟨q, h, _⟩⟩ := h <;> exact ⟨_, _, _, h⟩

/-! ## Which confirmations a history contains, computed -/

/-- The confirmation made by an event. -/
def confirmationOf (self : AccountId) (w : World) : Ev → Option (PublicKey × Nat)
  | .call who k att host c =>
    if who = self ∧ att = 0 then
      match exec (mkEnv self w self k 0 host) w.c c, c with
      | .ok _, .confirm id => some (k, id)
      | .ok r, .addRequestAndConfirm _ => some (k, r.id)
      | _, _ => none
    else none
  | .tick _ => none

/-- All confirmations of a history. -/
def confirmations (self : AccountId) (w : World) : List Ev → List (PublicKey × Nat)
  | [] => []
  | ev :: t => (confirmationOf self w ev).toList ++ confirmations self (step self w ev) t

theorem confirmationOf_of {self : AccountId} {w : World} {ev : Ev} {k : PublicKey} {id : Nat}
    (h : Confirms self w ev k id) : confirmationOf self w ev = some (k, id) := by
  obtain ⟨host, r, ⟨rfl, h⟩ | ⟨q, rfl, h, rfl⟩⟩ := h
  · simp [confirmationOf, h]
  · simp [confirmationOf, h]

theorem confirmations_of {self : AccountId} {w0 : World} {evs : List Ev} {k : PublicKey} {id : Nat}
    (h : Sometime self w0 evs (fun w e => Confirms self w e k id)) :
    (k, id) ∈ confirmations self w0 evs := by
  obtain ⟨l1, ev, l2, rfl, hc⟩ := h
  induction l1 generalizing w0 with
  | nil =>
    simp only [List.nil_append, confirmations, run] at hc ⊢
    rw [confirmationOf_of hc]; simp
  | cons e t ih =>
    simp only [List.cons_append, confirmations, List.mem_append]
    exact .inr (ih hc)

end Verif.Multisig
