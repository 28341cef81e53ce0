import Verif.Multisig2.Props3

/-!
# The access keys of the multisig2 account

`Multisig2.World` lets anybody call with any signer key. Here the access keys of the account are part of
the state: transactions must be signed with a key that permits them, and the batches that the contract
sends to its own account (from `new` and from executed requests) are delivered later; they add and delete
keys or call the contract again, with the signer key of the transaction at their origin.

Not modelled: replacing the code of the account (a batch with `DeployContract` to itself is treated as
failing), allowances, balances, and the effects on other accounts.
-/

namespace Verif.Multisig2

open Verif

/-- State of the account. -/
structure KWorld where
  w : World
  keys : UMap PublicKey Perm
  /-- batches to the account itself that are under way, with the signer key of their origin -/
  queue : List (PublicKey × Batch)
  /-- history variable: the accepted calls so far and the passing of time, oldest first -/
  log : List Ev

/-- Fixed surroundings: the account, and how method names and arguments are understood by the
contract (`near_bindgen` dispatch and JSON decoding). -/
structure KCfg where
  self : AccountId
  decode : String → Bytes → Option Call

/-- The batches that go to the account itself. -/
def enqueue (self : AccountId) (pk : PublicKey) (r : Res) (q : List (PublicKey × Batch)) :
    List (PublicKey × Batch) :=
  match r.batch with
  | some b => if b.receiver = self then q ++ [(pk, b)] else q
  | none => q

/-- A call of the contract; `none` if it panics. -/
def callK (cfg : KCfg) (kw : KWorld) (who : AccountId) (pk : PublicKey) (d : Nat) (host : Bool)
    (c : Call) : Option KWorld :=
  match exec (mkEnv cfg.self kw.w who pk d host) kw.w.c c with
  | .error _ => none
  | .ok r => some { kw with w := step cfg.self kw.w (.call who pk d host c)
                            queue := enqueue cfg.self pk r kw.queue
                            log := kw.log ++ [.call who pk d host c] }

/-- Run the actions of a receipt for the account itself; `none`: an action fails, so that the receipt
has no effect. `hosts` supplies for each call of the contract whether the host accepts its batch. -/
def runBatch (cfg : KCfg) (pk : PublicKey) : KWorld → List Bool → List PAction → Option KWorld
  | kw, _, [] => some kw
  | kw, hs, .transfer _ :: t => runBatch cfg pk kw hs t
  | _, _, .createAccount :: _ => none
  | _, _, .deployContract _ :: _ => none
  | kw, hs, .addAccessKey k _ r ms :: t =>
    if kw.keys.get k = none then runBatch cfg pk { kw with keys := kw.keys.insert k (.fn r ms) } hs t
    else none
  | kw, hs, .addFullAccessKey k :: t =>
    if kw.keys.get k = none then runBatch cfg pk { kw with keys := kw.keys.insert k .full } hs t
    else none
  | kw, hs, .deleteKey k :: t =>
    if kw.keys.get k = none then none
    else runBatch cfg pk { kw with keys := kw.keys.remove k } hs t
  | kw, hs, .functionCall m a d _ :: t =>
    match cfg.decode m a with
    | none => none
    | some c =>
      match callK cfg kw cfg.self pk d (hs.headD true) c with
      | none => none
      | some kw1 => runBatch cfg pk kw1 hs.tail t

/-- Whether a key with this permission may sign these actions for the account itself. -/
def permAllows (self : AccountId) (p : Perm) (acts : List PAction) : Bool :=
  match p, acts with
  | .full, _ => true
  | p, [.functionCall m _ d _] => p.permits self m && d = 0
  | _, _ => false

/-- Events. -/
inductive KEv where
  /-- a transaction to the account itself, signed with `pk` -/
  | sign (pk : PublicKey) (acts : List PAction) (hosts : List Bool)
  /-- the `i`-th batch under way arrives -/
  | deliver (i : Nat) (hosts : List Bool)
  /-- a call by another account; its transaction was signed with `pk` -/
  | foreign (who : AccountId) (pk : PublicKey) (attached : Nat) (host : Bool) (c : Call)
  | tick (dt : Nat)

/-- The transaction is signed with a key of the account that permits it. -/
def Signs (cfg : KCfg) (kw : KWorld) (pk : PublicKey) (acts : List PAction) : Prop :=
  ∃ p, kw.keys.get pk = some p ∧ permAllows cfg.self p acts = true

/-- One event. -/
def kstep (cfg : KCfg) (kw : KWorld) : KEv → KWorld
  | .sign pk acts hosts =>
    match kw.keys.get pk with
    | none => kw
    | some p =>
      if permAllows cfg.self p acts = true then (runBatch cfg pk kw hosts acts).getD kw else kw
  | .deliver i hosts =>
    match kw.queue[i]? with
    | none => kw
    | some x =>
      (runBatch cfg x.1 { kw with queue := kw.queue.eraseIdx i } hosts x.2.actions).getD
        { kw with queue := kw.queue.eraseIdx i }
  | .foreign who pk att host c =>
    if who = cfg.self then kw else (callK cfg kw who pk att host c).getD kw
  | .tick dt => { kw with w := step cfg.self kw.w (.tick dt), log := kw.log ++ [.tick dt] }

/-- A history. -/
def krun (cfg : KCfg) (kw : KWorld) : List KEv → KWorld
  | [] => kw
  | ev :: t => krun cfg (kstep cfg kw ev) t

/-- The account right after `new` was called by anybody, with access keys `keys0`: the batch of `new` is
under way. -/
def KStarted (cfg : KCfg) (ms : List Member) (n : Nat) (keys0 : UMap PublicKey Perm)
    (kw0 : KWorld) : Prop :=
  ∃ c b now who pk, new ⟨cfg.self, who, pk, 0, now, true⟩ false ms n = .ok (c, b) ∧
    kw0 = ⟨⟨c, now, []⟩, keys0, [(pk, b)], []⟩

theorem KStarted.started {cfg : KCfg} {ms : List Member} {n : Nat} {keys0 : UMap PublicKey Perm}
    {kw0 : KWorld} (h : KStarted cfg ms n keys0 kw0) : Started cfg.self ms n kw0.w := by
  obtain ⟨c, b, now, who, pk, h1, rfl⟩ := h
  exact ⟨c, b, now, who, pk, h1, rfl⟩

theorem krun_append (cfg : KCfg) (kw : KWorld) (l1 l2 : List KEv) :
    krun cfg kw (l1 ++ l2) = krun cfg (krun cfg kw l1) l2 := by
  induction l1 generalizing kw with
  | nil => rfl
  | cons h t ih => exact ih _

theorem krun_snoc (cfg : KCfg) (kw : KWorld) (l : List KEv) (ev : KEv) :
    krun cfg kw (l ++ [ev]) = kstep cfg (krun cfg kw l) ev := by
  rw [krun_append]; rfl

/-- The key that an action deletes. -/
def PAction.deletes : PAction → Option PublicKey
  | .deleteKey k => some k
  | _ => none

theorem callK_some {cfg : KCfg} {kw kw' : KWorld} {who : AccountId} {pk : PublicKey} {d : Nat}
    {host : Bool} {c : Call} (h : callK cfg kw who pk d host c = some kw') :
    ∃ r, ExecRel (mkEnv cfg.self kw.w who pk d host) kw.w.c c r ∧
      kw' = { kw with w := { kw.w with c := r.c, issued := logged r kw.w.issued }
                      queue := enqueue cfg.self pk r kw.queue
                      log := kw.log ++ [.call who pk d host c] } ∧
      step cfg.self kw.w (.call who pk d host c) =
        { kw.w with c := r.c, issued := logged r kw.w.issued } := by
  unfold callK at h
  cases hx : exec (mkEnv cfg.self kw.w who pk d host) kw.w.c c with
  | error m => rw [hx] at h; cases h
  | ok r =>
    rw [hx] at h
    simp only [Option.some.injEq] at h
    have hst : step cfg.self kw.w (.call who pk d host c) =
        { kw.w with c := r.c, issued := logged r kw.w.issued } := by simp only [step, hx]
    refine ⟨r, exec_ok.mp hx, ?_, hst⟩
    rw [← h, hst]

/-- A property that every part of a batch preserves is preserved by the batch. -/
theorem runBatch_induct {cfg : KCfg} {pk : PublicKey} (P : KWorld → Prop) (acts : List PAction)
    (hk : ∀ kw a k p, a ∈ acts → a.grants = some (k, p) → kw.keys.get k = none → P kw →
      P { kw with keys := kw.keys.insert k p })
    (hd : ∀ kw a k, a ∈ acts → a.deletes = some k → P kw → P { kw with keys := kw.keys.remove k })
    (hc : ∀ kw kw' d host c, callK cfg kw cfg.self pk d host c = some kw' → P kw → P kw')
    {kw kw' : KWorld} {hosts : List Bool} (h : runBatch cfg pk kw hosts acts = some kw')
    (hp : P kw) : P kw' := by
  induction acts generalizing kw hosts with
  | nil => simp only [runBatch, Option.some.injEq] at h; subst h; exact hp
  | cons a t ih =>
    have ih' := fun {kw hosts} => ih (fun kw a k p ha => hk kw a k p (List.mem_cons_of_mem _ ha))
      (fun kw a k ha => hd kw a k (List.mem_cons_of_mem _ ha)) (kw := kw) (hosts := hosts)
    cases a with
    | transfer x => exact ih' h hp
    | createAccount => cases h
    | deployContract c => cases h
    | addAccessKey k al r ms =>
      simp only [runBatch] at h
      split at h
      · rename_i hn
        exact ih' h (hk kw _ k _ List.mem_cons_self rfl hn hp)
      · cases h
    | addFullAccessKey k =>
      simp only [runBatch] at h
      split at h
      · rename_i hn
        exact ih' h (hk kw _ k _ List.mem_cons_self rfl hn hp)
      · cases h
    | deleteKey k =>
      simp only [runBatch] at h
      split at h
      · cases h
      · exact ih' h (hd kw _ k List.mem_cons_self rfl hp)
    | functionCall m a d g =>
      simp only [runBatch] at h
      split at h
      · cases h
      · split at h
        · cases h
        · rename_i kw1 hkw1
          exact ih' h (hc kw kw1 _ _ _ hkw1 hp)

/-- What an event does: nothing, or it runs a batch, or a call of another account, or time passes. -/
theorem kstep_cases (cfg : KCfg) (kw : KWorld) (ev : KEv) :
    (∃ q, kstep cfg kw ev = { kw with queue := q } ∧ (∀ p ∈ q, p ∈ kw.queue)) ∨
    (∃ pk acts hosts kw', ev = .sign pk acts hosts ∧ Signs cfg kw pk acts ∧
      runBatch cfg pk kw hosts acts = some kw' ∧ kstep cfg kw ev = kw') ∨
    (∃ i hosts x kw', ev = .deliver i hosts ∧ kw.queue[i]? = some x ∧
      runBatch cfg x.1 { kw with queue := kw.queue.eraseIdx i } hosts x.2.actions = some kw' ∧
      kstep cfg kw ev = kw') ∨
    (∃ who pk att host c kw', ev = .foreign who pk att host c ∧ who ≠ cfg.self ∧
      callK cfg kw who pk att host c = some kw' ∧ kstep cfg kw ev = kw') ∨
    ∃ dt, ev = .tick dt := by
  cases ev with
  | sign pk acts hosts =>
    simp only [kstep]
    cases hk : kw.keys.get pk with
    | none => exact .inl ⟨kw.queue, rfl, fun _ h => h⟩
    | some p =>
      simp only
      by_cases hp : permAllows cfg.self p acts = true
      · rw [if_pos hp]
        cases hb : runBatch cfg pk kw hosts acts with
        | none => exact .inl ⟨kw.queue, rfl, fun _ h => h⟩
        | some kw' => exact .inr (.inl ⟨pk, acts, hosts, kw', rfl, ⟨p, hk, hp⟩, hb, rfl⟩)
      · rw [if_neg hp]; exact .inl ⟨kw.queue, rfl, fun _ h => h⟩
  | deliver i hosts =>
    simp only [kstep]
    cases hq : kw.queue[i]? with
    | none => exact .inl ⟨kw.queue, rfl, fun _ h => h⟩
    | some x =>
      simp only
      cases hb : runBatch cfg x.1 { kw with queue := kw.queue.eraseIdx i } hosts x.2.actions with
      | none => exact .inl ⟨kw.queue.eraseIdx i, rfl, fun _ h => List.mem_of_mem_eraseIdx h⟩
      | some kw' => exact .inr (.inr (.inl ⟨i, hosts, x, kw', rfl, hq, hb, rfl⟩))
  | foreign who pk att host c =>
    simp only [kstep]
    by_cases hw : who = cfg.self
    · rw [if_pos hw]; exact .inl ⟨kw.queue, rfl, fun _ h => h⟩
    · rw [if_neg hw]
      cases hc : callK cfg kw who pk att host c with
      | none => exact .inl ⟨kw.queue, rfl, fun _ h => h⟩
      | some kw' => exact .inr (.inr (.inr (.inl ⟨who, pk, att, host, c, kw', rfl, hw, hc, rfl⟩)))
  | tick dt => exact .inr (.inr (.inr (.inr ⟨dt, rfl⟩)))

/-- A property of the account that neither time, calls, the permitted key changes nor the arrival of
batches destroy holds always. -/
theorem kstep_induct {cfg : KCfg} (P : KWorld → Prop)
    (hq : ∀ kw q, (∀ p ∈ q, p ∈ kw.queue) → P kw → P { kw with queue := q })
    (hc : ∀ kw kw' who pk d host c, callK cfg kw who pk d host c = some kw' → P kw → P kw')
    (ht : ∀ kw dt, P kw → P (kstep cfg kw (.tick dt)))
    (kw : KWorld) (ev : KEv)
    (hk : ∀ kw1 a k p, ((∃ pk acts hosts, ev = .sign pk acts hosts ∧ Signs cfg kw pk acts ∧ a ∈ acts) ∨
      ∃ x ∈ kw.queue, a ∈ x.2.actions) → a.grants = some (k, p) → kw1.keys.get k = none → P kw1 →
      P { kw1 with keys := kw1.keys.insert k p })
    (hd : ∀ kw1 a k, ((∃ pk acts hosts, ev = .sign pk acts hosts ∧ Signs cfg kw pk acts ∧ a ∈ acts) ∨
      ∃ x ∈ kw.queue, a ∈ x.2.actions) → a.deletes = some k → P kw1 →
      P { kw1 with keys := kw1.keys.remove k })
    (hp : P kw) : P (kstep cfg kw ev) := by
  rcases kstep_cases cfg kw ev with ⟨q, h1, h2⟩ | ⟨pk, acts, hosts, kw', rfl, hs, hb, h1⟩ |
    ⟨i, hosts, x, kw', rfl, hx, hb, h1⟩ | ⟨who, pk, att, host, c, kw', rfl, _, h2, h1⟩ | ⟨dt, rfl⟩
  · rw [h1]; exact hq kw q h2 hp
  · rw [h1]
    exact runBatch_induct P acts
      (fun kw1 a k p ha => hk kw1 a k p (.inl ⟨pk, acts, hosts, rfl, hs, ha⟩))
      (fun kw1 a k ha => hd kw1 a k (.inl ⟨pk, acts, hosts, rfl, hs, ha⟩))
      (fun kw kw' d host c => hc kw kw' _ _ _ _ _) hb hp
  · rw [h1]
    have hm : x ∈ kw.queue := List.mem_of_getElem? hx
    exact runBatch_induct P x.2.actions
      (fun kw1 a k p ha => hk kw1 a k p (.inr ⟨x, hm, ha⟩))
      (fun kw1 a k ha => hd kw1 a k (.inr ⟨x, hm, ha⟩))
      (fun kw kw' d host c => hc kw kw' _ _ _ _ _) hb
      (hq kw _ (fun _ h => List.mem_of_mem_eraseIdx h) hp)
  · rw [h1]; exact hc _ _ _ _ _ _ _ h2 hp
  · exact ht kw dt hp

/-! ## The contract follows the log -/

theorem log_step {cfg : KCfg} {w0 : World} (kw : KWorld) (ev : KEv) (h : kw.w = run cfg.self w0 kw.log) :
    (kstep cfg kw ev).w = run cfg.self w0 (kstep cfg kw ev).log := by
  refine kstep_induct (fun kw => kw.w = run cfg.self w0 kw.log) (fun kw q _ h => h) ?_ ?_ kw ev
    (fun _ _ _ _ _ _ _ h => h) (fun _ _ _ _ _ h => h) h
  · intro kw kw' who pk d host c hc h
    obtain ⟨r, _, rfl, hst⟩ := callK_some hc
    simp only
    rw [run_snoc, ← h, hst]
  · intro kw dt h
    simp only [kstep]
    rw [run_snoc, ← h]

theorem log_run {cfg : KCfg} {ms : List Member} {n : Nat} {keys0 : UMap PublicKey Perm} {kw0 : KWorld}
    (hs : KStarted cfg ms n keys0 kw0) (evs : List KEv) :
    (krun cfg kw0 evs).w = run cfg.self kw0.w (krun cfg kw0 evs).log := by
  induction evs using List.reverseRecOn with
  | nil => obtain ⟨c, b, now, who, pk, _, rfl⟩ := hs; rfl
  | append_singleton l ev ih => rw [krun_snoc]; exact log_step _ _ ih

theorem prefix_step {cfg : KCfg} (kw : KWorld) (ev : KEv) : kw.log <+: (kstep cfg kw ev).log := by
  refine kstep_induct (fun kw' => kw.log <+: kw'.log) (fun kw q _ h => h) ?_ ?_ kw ev
    (fun _ _ _ _ _ _ _ h => h) (fun _ _ _ _ _ h => h) (List.prefix_refl _)
  · intro kw kw' who pk d host c hc h
    obtain ⟨r, _, rfl, hst⟩ := callK_some hc
    exact h.trans (List.prefix_append _ _)
  · intro kw dt h
    exact h.trans (List.prefix_append _ _)

/-! ## Where keys come from -/

/-- Why the account has the key `k` with permission `p`. -/
inductive Source (cfg : KCfg) (ms : List Member) (keys0 : UMap PublicKey Perm) (kw0 : KWorld)
    (evs : List KEv) (issued : List (Nat × Batch)) (k : PublicKey) (p : Perm) : Prop
  | initial : keys0.get k = some p → Source cfg ms keys0 kw0 evs issued k p
  | founder : .key k ∈ ms → p = .fn cfg.self multisigMethodNames →
      Source cfg ms keys0 kw0 evs issued k p
  | request (id : Nat) (b : Batch) (a : PAction) : (id, b) ∈ issued → b.receiver = cfg.self →
      a ∈ b.actions → a.grants = some (k, p) → Source cfg ms keys0 kw0 evs issued k p
  | signed (l1 : List KEv) (k' : PublicKey) (acts : List PAction) (hosts : List Bool) (l2 : List KEv)
      (a : PAction) : evs = l1 ++ .sign k' acts hosts :: l2 →
      (krun cfg kw0 l1).keys.get k' = some .full → a ∈ acts → a.grants = some (k, p) →
      Source cfg ms keys0 kw0 evs issued k p

theorem Source.mono {cfg : KCfg} {ms : List Member} {keys0 : UMap PublicKey Perm} {kw0 : KWorld}
    {evs : List KEv} {i1 i2 : List (Nat × Batch)} {k : PublicKey} {p : Perm} (hi : i1 ⊆ i2)
    (l : List KEv) (h : Source cfg ms keys0 kw0 evs i1 k p) :
    Source cfg ms keys0 kw0 (evs ++ l) i2 k p := by
  cases h with
  | initial h => exact .initial h
  | founder h1 h2 => exact .founder h1 h2
  | request id b a h1 h2 h3 h4 => exact .request id b a (hi h1) h2 h3 h4
  | signed l1 k' acts hosts l2 a h1 h2 h3 h4 =>
    exact .signed l1 k' acts hosts (l2 ++ l) a (by rw [h1]; simp) h2 h3 h4

/-- Where the batches under way come from. -/
def QueueOrigin (cfg : KCfg) (ms : List Member) (kw : KWorld) : Prop :=
  ∀ x ∈ kw.queue, (x.2.actions = ms.flatMap (memberKeyAction cfg.self)) ∨
    ∃ id, (id, x.2) ∈ kw.w.issued ∧ x.2.receiver = cfg.self

theorem subset_logged {r : Res} {l : List (Nat × Batch)} : l ⊆ logged r l := by
  unfold logged
  cases r.batch with
  | none => exact fun _ h => h
  | some b => exact List.subset_cons_self _ _

theorem queue_step {cfg : KCfg} {ms : List Member} (kw : KWorld) (ev : KEv)
    (h : QueueOrigin cfg ms kw) : QueueOrigin cfg ms (kstep cfg kw ev) := by
  refine kstep_induct (QueueOrigin cfg ms) (fun kw q hq h x hx => h x (hq x hx)) ?_ (fun kw dt h => h)
    kw ev (fun _ _ _ _ _ _ _ h => h) (fun _ _ _ _ _ h => h) h
  intro kw kw' who pk d host c hc h x hx
  obtain ⟨r, _, rfl, hst⟩ := callK_some hc
  have old : x ∈ kw.queue → (x.2.actions = ms.flatMap (memberKeyAction cfg.self)) ∨
      ∃ id, (id, x.2) ∈ logged r kw.w.issued ∧ x.2.receiver = cfg.self := by
    intro hx
    rcases h x hx with h | ⟨id, h1, h2⟩
    · exact .inl h
    · exact .inr ⟨id, subset_logged h1, h2⟩
  simp only [enqueue] at hx
  cases hb : r.batch with
  | none => rw [hb] at hx; exact old hx
  | some b =>
    rw [hb] at hx
    simp only at hx
    split at hx
    · rename_i hself
      rcases List.mem_append.mp hx with hx | hx
      · exact old hx
      · rw [List.mem_singleton] at hx
        subst hx
        refine .inr ⟨r.id, ?_, hself⟩
        simp only [logged, hb]
        exact List.mem_cons_self
    · exact old hx

theorem issued_step {cfg : KCfg} (kw : KWorld) (ev : KEv) :
    kw.w.issued ⊆ (kstep cfg kw ev).w.issued := by
  refine kstep_induct (fun kw' => kw.w.issued ⊆ kw'.w.issued) (fun kw q _ h => h) ?_ (fun kw dt h => h)
    kw ev (fun _ _ _ _ _ _ _ h => h) (fun _ _ _ _ _ h => h) (fun _ h => h)
  intro kw1 kw' who pk d host c hc h
  obtain ⟨r, _, rfl, hst⟩ := callK_some hc
  exact fun x hx => subset_logged (h hx)

theorem signs_full {cfg : KCfg} {kw : KWorld} {pk : PublicKey} {acts : List PAction}
    (h : Signs cfg kw pk acts) {a : PAction} (ha : a ∈ acts) (hk : a.grants ≠ none ∨ a.deletes ≠ none) :
    kw.keys.get pk = some .full := by
  obtain ⟨p, h1, h2⟩ := h
  cases p with
  | full => exact h1
  | fn r m =>
    exfalso
    simp only [permAllows] at h2
    split at h2
    · cases ‹Perm.fn r m = Perm.full›
    · rw [List.mem_singleton] at ha
      subst ha
      rcases hk with hk | hk <;> exact hk rfl
    · cases h2

theorem source_run {cfg : KCfg} {ms : List Member} {n : Nat} {keys0 : UMap PublicKey Perm}
    {kw0 : KWorld} (hs : KStarted cfg ms n keys0 kw0) (evs : List KEv) :
    QueueOrigin cfg ms (krun cfg kw0 evs) ∧ ∀ k p, (krun cfg kw0 evs).keys.get k = some p →
      Source cfg ms keys0 kw0 evs (krun cfg kw0 evs).w.issued k p := by
  induction evs using List.reverseRecOn with
  | nil =>
    obtain ⟨c, b, now, who, pk, hn, rfl⟩ := hs
    obtain ⟨_, _, _, _, _, hx⟩ := new_ok.mp hn
    cases hx
    refine ⟨?_, fun k p h => .initial h⟩
    intro x hx
    simp only [krun, List.mem_singleton] at hx
    subst hx
    exact .inl rfl
  | append_singleton l ev ih =>
    obtain ⟨h1, h2⟩ := ih
    rw [krun_snoc]
    refine ⟨queue_step _ _ h1, ?_⟩
    generalize hkw : krun cfg kw0 l = kw at h1 h2 ⊢
    have hsub := issued_step (cfg := cfg) kw ev
    refine kstep_induct (fun kw' => ∀ k p, kw'.keys.get k = some p →
      Source cfg ms keys0 kw0 (l ++ [ev]) (kstep cfg kw ev).w.issued k p) (fun kw q _ h => h) ?_
      (fun kw dt h => h) kw ev ?_ ?_ (fun k p h => (h2 k p h).mono hsub [ev])
    · intro kw1 kw' who pk d host c hc h
      obtain ⟨r, _, rfl, hst⟩ := callK_some hc
      exact h
    · intro kw1 a k p hor ha _ h k' p' hg
      simp only [UMap.get_insert] at hg
      split at hg
      · rename_i he
        subst he
        cases hg
        rcases hor with ⟨pk, acts, hosts, rfl, hsg, hm⟩ | ⟨x, hx, hm⟩
        · refine .signed l pk acts hosts [] a rfl ?_ hm ha
          rw [hkw]
          exact signs_full hsg hm (.inl (by rw [ha]; simp))
        · rcases h1 x hx with hx | ⟨id, hx1, hx2⟩
          · rw [hx] at hm
            obtain ⟨m, hm1, hm2⟩ := List.mem_flatMap.mp hm
            cases m with
            | account a => cases hm2
            | key k1 =>
              simp only [memberKeyAction, List.mem_singleton] at hm2
              subst hm2
              cases ha
              exact .founder hm1 rfl
          · exact .request id x.2 a (hsub hx1) hx2 hm ha
      · exact h k' p' hg
    · intro kw1 a k hor ha h k' p' hg
      simp only [UMap.get_remove] at hg
      split at hg
      · cases hg
      · exact h k' p' hg

end Verif.Multisig2
