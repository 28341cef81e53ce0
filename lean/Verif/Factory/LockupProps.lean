import Verif.Factory.LockupLemmas

/-!
# Lockup factory: property theorems (C53, C54)
-/

namespace Verif.LockupFactory

open Verif Verif.Factory

/-! ## Vocabulary -/

/-- A creation that has neither succeeded nor been refunded yet: (deposit, caller). -/
def Receipt.pending : Receipt → Option (Nat × AccountId)
  | .create b _ _ c => some (b.deposit, c)
  | .callback _ d c false => some (d, c)
  | _ => none

/-- All such creations. -/
def pending (w : World) : List (Nat × AccountId) := w.receipts.filterMap Receipt.pending

/-- Total deposit of unfinished creations of `a`. -/
def pendingOf (w : World) (a : AccountId) : Nat :=
  (((pending w).filter (fun p => p.2 = a)).map Prod.fst).sum

/-- Total deposit on the lockups created for `a`. -/
def onLockups (w : World) (a : AccountId) : Nat :=
  (((w.accounts.entries.map Prod.snd).filter (fun acc => acc.caller = a)).map
    (fun acc => acc.lockup.bal)).sum

/-- The account was created by the factory. -/
def IsLockup (w : World) (id : AccountId) : Prop := ∃ acc, w.accounts.get id = some acc

/-- In the history `evs`, `who` called `create` with deposit `att` and arguments `a`, and the call was
accepted. -/
def Asked (cfg : Cfg) (w0 : World) (evs : List Ev) (who : AccountId) (att : Nat) (a : CreateArgs) : Prop :=
  ∃ l1 l2, evs = l1 ++ .create who att a :: l2 ∧
    ∃ r, create (mkEnv cfg (run cfg w0 l1) who att []) (run cfg w0 l1).c a = .ok r

/-! ## Helper lemmas -/

theorem isLockup_iff {w : World} {id : AccountId} : IsLockup w id ↔ w.accounts.contains id = true := by
  unfold IsLockup
  rw [PoolFactory.contains_eq]
  cases w.accounts.get id <;> simp

theorem owed_eq {cfg : Cfg} {s : State} {w : World} (h : ∀ r ∈ w.receipts, ReceiptOk cfg s r)
    (a : AccountId) : rsum (Receipt.owed a) w.receipts = pendingOf w a := by
  unfold pendingOf pending
  generalize w.receipts = l at h
  induction l with
  | nil => rfl
  | cons r t ih =>
    have ih' := ih (fun q hq => h q (List.mem_cons_of_mem _ hq))
    have hr := h r (by simp)
    simp only [rsum, List.map_cons, List.sum_cons] at ih' ⊢
    rw [ih']
    match r, hr with
    | .create b id d c, hr =>
      obtain ⟨_, rfl, _⟩ := hr
      by_cases hc : c = a <;> simp [Receipt.owed, Receipt.pending, hc]
    | .callback id d c true, _ => simp [Receipt.owed, Receipt.pending, List.filterMap_cons]
    | .callback id d c false, _ => by_cases hc : c = a <;> simp [Receipt.owed, Receipt.pending, hc]

theorem onLockups_eq {cfg : Cfg} {base : Nat} {s : State} {w : World} (h : FInv cfg base s w)
    (a : AccountId) :
    w.accounts.sum (fun _ acc => if acc.caller = a then acc.deposit else 0) = onLockups w a := by
  have hd : ∀ p ∈ w.accounts.entries, p.2.lockup.bal = p.2.deposit := by
    rintro ⟨id, acc⟩ hp
    exact (h.accounts id acc (UMap.get_eq_some.mpr hp)).deposit
  unfold onLockups UMap.sum
  generalize w.accounts.entries = l at hd
  induction l with
  | nil => rfl
  | cons p t ih =>
    have ih' := ih (fun q hq => hd q (List.mem_cons_of_mem _ hq))
    have hp := hd p (by simp)
    simp only [List.map_cons, List.sum_cons]
    rw [ih']
    by_cases hc : p.2.caller = a <;> simp [hc, hp]

theorem run_snoc (cfg : Cfg) (w : World) (l : List Ev) (ev : Ev) :
    run cfg w (l ++ [ev]) = step cfg (run cfg w l) ev := by simp [run]

theorem reach_inv {cfg : Cfg} {w0 : World} (hs : Started cfg w0) (evs : List Ev) :
    FInv cfg (w0.bal + income evs) w0.c (run cfg w0 evs) := finv_run (started_finv hs) evs

theorem deploy_of {cfg : Cfg} {w : World} {ok : Bool} {b : Batch} {caller : AccountId} {acc : Created}
    (hd : (if ok then deploy cfg w b caller else none) = some acc) : deploy cfg w b caller = some acc := by
  cases ok with
  | true => exact hd
  | false => cases hd

/-- The accounts only grow. -/
theorem accounts_step (cfg : Cfg) (w : World) (ev : Ev) (id : AccountId) (acc : Created)
    (h : w.accounts.get id = some acc) : (step cfg w ev).accounts.get id = some acc := by
  cases ev with
  | create who att a => simp only [step]; split <;> exact h
  | callCallback who att i d caller => rw [callCallback_step]; exact h
  | deliver i ok =>
    simp only [step]
    cases hr : w.receipts[i]? with
    | none => exact h
    | some r =>
      match r with
      | .create b j d caller =>
        simp only [execReceipt]
        cases hd : (if ok then deploy cfg { w with receipts := w.receipts.eraseIdx i } b caller else none) with
        | none => exact h
        | some acc' =>
          have hn := (deploy_some (deploy_of hd)).2.2.1
          have hne : b.receiver ≠ id := by
            rintro rfl
            simp only [PoolFactory.contains_eq, h] at hn
            cases hn
          simp only
          rw [UMap.get_insert_ne hne]; exact h
      | .callback j d caller b => simp only [execReceipt]; split <;> exact h
  | income n => exact h
  | tick n => exact h

theorem accounts_run (cfg : Cfg) (w : World) (evs : List Ev) (id : AccountId) (acc : Created)
    (h : w.accounts.get id = some acc) : (run cfg w evs).accounts.get id = some acc := by
  unfold run
  induction evs generalizing w with
  | nil => exact h
  | cons ev t ih => exact ih _ (accounts_step cfg w ev id acc h)

theorem Asked.snoc {cfg : Cfg} {w0 : World} {l : List Ev} {who : AccountId} {att : Nat} {a : CreateArgs}
    (h : Asked cfg w0 l who att a) (ev : Ev) : Asked cfg w0 (l ++ [ev]) who att a := by
  obtain ⟨l1, l2, rfl, hr⟩ := h
  exact ⟨l1, l2 ++ [ev], by simp, hr⟩

/-- Creation receipts and created accounts come from accepted calls. -/
theorem origin {cfg : Cfg} {w0 : World} (hs : Started cfg w0) (evs : List Ev) :
    (∀ b id d caller, .create b id d caller ∈ (run cfg w0 evs).receipts →
      ∃ a, Asked cfg w0 evs caller d a ∧ b.args = newArgs w0.c a) ∧
    (∀ id acc, (run cfg w0 evs).accounts.get id = some acc →
      ∃ a, Asked cfg w0 evs acc.caller acc.deposit a ∧ acc.args = newArgs w0.c a) := by
  induction evs using List.reverseRecOn with
  | nil =>
    obtain ⟨who, wl, fd, s, bal, now, hn, rfl⟩ := hs
    refine ⟨fun b id d caller h => ?_, fun id acc h => ?_⟩
    · simp [run] at h
    · simp [run] at h
  | append_singleton l ev ih =>
    rw [run_snoc]
    have hi := reach_inv hs l
    obtain ⟨ih1, ih2⟩ := ih
    have keep1 : ∀ b id d caller, .create b id d caller ∈ (run cfg w0 l).receipts →
        ∃ a, Asked cfg w0 (l ++ [ev]) caller d a ∧ b.args = newArgs w0.c a := by
      intro b id d caller h
      obtain ⟨a, h1, h2⟩ := ih1 b id d caller h
      exact ⟨a, h1.snoc ev, h2⟩
    have keep2 : ∀ id acc, (run cfg w0 l).accounts.get id = some acc →
        ∃ a, Asked cfg w0 (l ++ [ev]) acc.caller acc.deposit a ∧ acc.args = newArgs w0.c a := by
      intro id acc h
      obtain ⟨a, h1, h2⟩ := ih2 id acc h
      exact ⟨a, h1.snoc ev, h2⟩
    cases ev with
    | create who att a =>
      simp only [step]
      cases hx : create (mkEnv cfg (run cfg w0 l) who att []) (run cfg w0 l).c a with
      | error m => exact ⟨keep1, keep2⟩
      | ok r =>
        obtain ⟨s', effs⟩ := r
        have hasked : Asked cfg w0 (l ++ [.create who att a]) who att a := ⟨l, [], rfl, _, hx⟩
        obtain ⟨_, rfl, rfl⟩ := create_ok.mp hx
        refine ⟨fun b id d caller h => ?_, keep2⟩
        simp only [applyCall] at h
        rcases List.mem_append.mp h with h | h
        · exact keep1 b id d caller h
        · simp only [createEff, Eff.receipt, List.flatMap_cons, List.flatMap_nil, List.append_nil,
            List.mem_singleton, Receipt.create.injEq] at h
          obtain ⟨rfl, _, rfl, rfl⟩ := h
          exact ⟨a, hasked, by rw [hi.state]⟩
    | callCallback who att id d caller => rw [callCallback_step]; exact ⟨keep1, keep2⟩
    | income n => exact ⟨keep1, keep2⟩
    | tick n => exact ⟨keep1, keep2⟩
    | deliver i ok =>
      simp only [step]
      cases hr : (run cfg w0 l).receipts[i]? with
      | none => exact ⟨keep1, keep2⟩
      | some r =>
        have hmem := List.mem_of_getElem? hr
        match r, hr, hmem with
        | .create b' id' d' caller', hr, hmem =>
          obtain ⟨_, hd', _⟩ := hi.receipts _ hmem
          simp only [execReceipt]
          cases hd : (if ok then deploy cfg { run cfg w0 l with
              receipts := (run cfg w0 l).receipts.eraseIdx i } b' caller' else none) with
          | none =>
            refine ⟨fun b id d caller h => ?_, keep2⟩
            rcases List.mem_append.mp h with h | h
            · exact keep1 b id d caller (List.mem_of_mem_eraseIdx h)
            · simp at h
          | some acc =>
            refine ⟨fun b id d caller h => ?_, fun id acc' h => ?_⟩
            · rcases List.mem_append.mp h with h | h
              · exact keep1 b id d caller (List.mem_of_mem_eraseIdx h)
              · simp at h
            · simp only [UMap.get_insert] at h
              split at h
              · cases h
                obtain ⟨_, _, _, _, g5, g6, _, g8, _⟩ := deploy_some (deploy_of hd)
                obtain ⟨a, h1, h2⟩ := keep1 b' id' d' caller' hmem
                exact ⟨a, by rw [g6, g5, hd']; exact h1, by rw [g8]; exact h2⟩
              · exact keep2 id acc' h
        | .callback id' d' caller' b', hr, hmem =>
          simp only [execReceipt]
          split
          · rename_i s effs v hx
            have heff : effs.flatMap Eff.receipt = [] := by
              obtain ⟨_, _, _, ⟨_, rfl, _⟩ | ⟨_, _, rfl, _⟩⟩ := callback_ok.mp hx <;> rfl
            refine ⟨fun b id d caller h => ?_, keep2⟩
            simp only [applyCall, heff, List.append_nil] at h
            exact keep1 b id d caller (List.mem_of_mem_eraseIdx h)
          · exact ⟨fun b id d caller h => keep1 b id d caller (List.mem_of_mem_eraseIdx h), keep2⟩

/-! ## A concrete history -/

/-- A stand-in for the hash: 32 bytes, the first of them is the length of the input. -/
def demoSha (l : List UInt8) : List UInt8 := UInt8.ofNat l.length :: List.replicate 31 7

def demoCfg : Cfg where
  self := "lockup.near"
  validAccountId := AccountIds.isValid
  sha256 := demoSha
  existing := fun a => a = lockupId demoSha "lockup.near" "existing"

def demo0 : World :=
  { c := ⟨"whitelist", "foundation"⟩, bal := 5, now := 1700000000000000000, accounts := .empty,
    receipts := [], attachedBy := fun _ => 0, refunded := fun _ => 0 }

theorem demo0_started : Started demoCfg demo0 :=
  ⟨"x", "whitelist", "foundation", _, 5, 1700000000000000000, rfl, rfl⟩

/-- A lockup with a public vesting schedule. -/
def aliceArgs : CreateArgs := ⟨"alice", 10, none, some (.schedule ⟨0, 1, 2⟩), none, none⟩

/-- `payer` creates two lockups for `alice` and one for an owner whose account is taken. -/
def demo1 : List Ev :=
  [.create "payer" minAttachedBalance aliceArgs,
   .create "other" (minAttachedBalance + 1) ⟨"alice", 0, none, none, none, none⟩,
   .create "payer" (minAttachedBalance + 2) ⟨"existing", 0, none, none, none, some "wl2"⟩]

/-- All creations are executed, then their callbacks. -/
def demo2 : List Ev :=
  demo1 ++ [.deliver 0 true, .deliver 0 true, .deliver 0 true, .deliver 0 true, .deliver 0 true,
    .deliver 0 true]

/-! ## C54: the account id -/

/-- **C54.** What the factory creates for an owner is the account
`hex(first 20 bytes of sha256(owner)).factory`, which did not exist before, with the lockup code,
initialized by that code for that owner with at least the minimum deposit of 3.5 NEAR. -/
theorem C54_created_accounts {cfg : Cfg} {w0 : World} (hs : Started cfg w0) (evs : List Ev)
    {id : AccountId} {acc : Created} (ha : (run cfg w0 evs).accounts.get id = some acc) :
    id = String.ofList (AccountIds.hexEncode ((cfg.sha256 acc.lockup.c.owner.toUTF8.toList).take 20)) ++ "." ++
      cfg.self ∧
    cfg.existing id = false ∧ acc.code = .lockup ∧
    (∀ honest, Lockup.Started (lockupCfg cfg honest id) acc.args acc.lockup) ∧
    35 * 10 ^ 23 ≤ acc.lockup.bal := by
  obtain ⟨h1, h2, ⟨a, h3, h4, h5⟩, h6, h7⟩ := (reach_inv hs evs).accounts id acc ha
  obtain ⟨_, _, _, c, _, hn, hw⟩ := h6 true
  have hown : acc.lockup.c.owner = a.owner := by
    rw [hw, h4] at *
    simp only [Lockup.new, bind_ok, pure_ok] at hn
    obtain ⟨_, _, _, _, _, _, _, _, _, _, _, _, _, _, _, _, _, _, _, _, rfl⟩ := hn
    rfl
  refine ⟨by rw [hown, h5]; rfl, h2, h1, h6, by rw [h7]; exact h3.enough⟩

/-- **C54.** Two owners share an account id exactly when the first 20 bytes of the hashes of their ids
agree. In particular the id is a function of the owner. -/
theorem C54_id_inj (sha256 : List UInt8 → List UInt8) (self o1 o2 : AccountId) :
    lockupId sha256 self o1 = lockupId sha256 self o2 ↔
      (sha256 o1.toUTF8.toList).take 20 = (sha256 o2.toUTF8.toList).take 20 := by
  unfold lockupId
  constructor
  · intro h
    have h1 := subAccount_inj h
    have h2 := congrArg String.toList h1
    rw [String.toList_ofList, String.toList_ofList] at h2
    exact AccountIds.hexEncode_inj h2
  · intro h; rw [h]

/-- **C54.** There is at most one lockup per owner: a second creation for the owner can never add or
change an account. -/
theorem C54_one_account_per_owner {cfg : Cfg} {w0 : World} (hs : Started cfg w0) (evs evs' : List Ev)
    {id id' : AccountId} {acc acc' : Created} (ha : (run cfg w0 evs).accounts.get id = some acc)
    (ha' : (run cfg w0 (evs ++ evs')).accounts.get id' = some acc')
    (ho : acc.lockup.c.owner = acc'.lockup.c.owner) : id = id' ∧ acc = acc' := by
  have h1 : run cfg w0 (evs ++ evs') = run cfg (run cfg w0 evs) evs' := by simp [run]
  have h2 := accounts_run cfg _ evs' id acc ha
  rw [← h1] at h2
  have h3 := (C54_created_accounts hs evs ha).1
  have h4 := (C54_created_accounts hs _ ha').1
  rw [ho] at h3
  have : id = id' := h3.trans h4.symm
  subst this
  rw [h2] at ha'
  cases ha'
  exact ⟨rfl, rfl⟩

/-- **C54.** With the validity rules of NEAR account ids and 32-byte hashes, the id of every owner is
a valid account id of at most 64 characters (this is what the limit of 23 characters in `new` is for),
so no call fails for this reason. -/
theorem C54_id_valid {cfg : Cfg} {w0 : World} (hs : Started cfg w0)
    (hself : AccountIds.isValid cfg.self = true) (hsha : ∀ l, (cfg.sha256 l).length = 32)
    (owner : AccountId) : AccountIds.isValid (lockupId cfg.sha256 cfg.self owner) = true := by
  obtain ⟨who, wl, fd, s, bal, now, hn, rfl⟩ := hs
  simp only [new, decodeId, notPayable, bind_ok, require_ok, pure_ok] at hn
  obtain ⟨_, _, _, _, _, _, _, _, _, hlen, _⟩ := hn
  have hl : (AccountIds.hexEncode ((cfg.sha256 owner.toUTF8.toList).take 20)).length = 40 := by
    rw [AccountIds.hexEncode_length, List.length_take, hsha]; rfl
  refine AccountIds.isValid_sub ?_ ?_ hself ?_
  · rw [String.toList_ofList]; exact AccountIds.hexEncode_alnum _
  · rw [String.toList_ofList]
    intro h0
    rw [h0] at hl
    cases hl
  · rw [String.toList_ofList, hl]; omega

example : AccountIds.isValid demoCfg.self = true ∧ (∀ l, (demoCfg.sha256 l).length = 32) :=
  ⟨by decide +kernel, fun l => by simp [demoCfg, demoSha]⟩

/-! ## C54: what the caller asked for -/

/-- **C54.** Every lockup was asked for by an accepted call, and it is set up as that call says:
the deposit attached by the caller is its balance and the amount locked, owner, durations and vesting are
the arguments, the whitelist is the argument or the factory's default, transfers are enabled; and the
foundation of the factory is entitled to terminate exactly if a vesting schedule was given. -/
theorem C54_created_as_asked {cfg : Cfg} {w0 : World} (hs : Started cfg w0) (evs : List Ev)
    {id : AccountId} {acc : Created} (hacc : (run cfg w0 evs).accounts.get id = some acc) :
    ∃ who att a, Asked cfg w0 evs who att a ∧ acc.caller = who ∧ acc.lockup.bal = att ∧
      acc.lockup.c.owner = a.owner ∧ acc.lockup.c.info.lockupAmount = att ∧
      acc.lockup.c.info.lockupDuration = a.lockupDuration ∧
      acc.lockup.c.info.lockupTimestamp = a.lockupTimestamp ∧
      acc.lockup.c.info.releaseDuration = a.releaseDuration ∧
      acc.lockup.c.info.transfers = .enabled 1602614338293769340 ∧
      (acc.lockup.c.vesting = match a.vesting with
        | none => .none
        | some (.hash h) => .hash h
        | some (.schedule vs) => .schedule vs) ∧
      acc.lockup.c.whitelist = a.whitelist.getD w0.c.whitelist ∧
      (acc.lockup.c.foundation = if a.vesting.isSome then some w0.c.foundation else none) ∧
      acc.lockup.c.staking = none := by
  have hi := reach_inv hs evs
  obtain ⟨h1, h2, ⟨a', h3, h4, h5⟩, h6, h7⟩ := hi.accounts id acc hacc
  obtain ⟨a, g1, g2⟩ := (origin hs evs).2 id acc hacc
  obtain ⟨dep, bal, now, c, hb, hn, hw⟩ := h6 true
  have hbal : bal = acc.deposit := by rw [← h7, hw]; rfl
  subst hbal
  have ha : Accepts cfg acc.deposit a := by
    obtain ⟨l1, l2, _, ⟨s, effs⟩, hx⟩ := g1
    exact (create_ok.mp hx).1
  obtain ⟨c', hc', k1, k2, k3, k4, k5, k6, k7, k8, k9, k10⟩ :=
    lockup_new_ok (cfg := cfg) (honest := true) (id := id) (deployer := dep) (s := w0.c) (a := a)
      (balance := acc.deposit) (now := now) ha hi.valid.1 hi.valid.2
  rw [g2] at hn
  rw [hn] at hc'
  cases hc'
  have hcc : acc.lockup.c = c := by rw [hw]; rfl
  rw [hcc]
  exact ⟨acc.caller, acc.deposit, a, g1, rfl, h7, k1, k4, k5, k6, k7, k3, k8, k9, k2, k10⟩

/-- **C54.** What the factory tells about itself, at any time: the foundation it was started with, itself
as the account whose sub-accounts the lockups are, and the minimum deposit. -/
theorem C54_views {cfg : Cfg} {w0 : World} (hs : Started cfg w0) (evs : List Ev) (who : AccountId)
    {id : AccountId} {acc : Created} (hacc : (run cfg w0 evs).accounts.get id = some acc) :
    getFoundation (run cfg w0 evs).c = w0.c.foundation ∧
    (∃ name : AccountId, id = name ++ "." ++ getMaster (mkEnv cfg (run cfg w0 evs) who 0 [])) ∧
    getMinAttachedBalance ≤ acc.lockup.bal ∧ getMinAttachedBalance = 35 * 10 ^ 23 := by
  obtain ⟨h1, _, _, _, h5⟩ := C54_created_accounts hs evs hacc
  exact ⟨by rw [getFoundation, (reach_inv hs evs).state], ⟨_, h1⟩, h5, rfl⟩

example : ((run demoCfg demo0 demo2).accounts.get (lockupId demoSha "lockup.near" "alice")).isSome = true ∧
    getFoundation (run demoCfg demo0 demo2).c = "foundation" ∧
    getMaster (mkEnv demoCfg (run demoCfg demo0 demo2) "x" 0 []) = "lockup.near" := by
  decide +kernel

/-- **C54.** The created lockup has somebody who may terminate the vesting exactly if it has vesting,
and that is the factory's foundation. -/
theorem C54_terminator {cfg : Cfg} {w0 : World} (hs : Started cfg w0) (evs : List Ev)
    {id : AccountId} {acc : Created} (hacc : (run cfg w0 evs).accounts.get id = some acc) :
    (acc.lockup.c.vesting = .none ↔ acc.lockup.c.foundation = none) ∧
    (acc.lockup.c.vesting ≠ .none ↔ acc.lockup.c.foundation = some (getFoundation w0.c)) := by
  obtain ⟨who, att, a, _, _, _, _, _, _, _, _, _, hv, _, hf, _⟩ := C54_created_as_asked hs evs hacc
  rw [hv, hf]
  match a.vesting with
  | none => simp
  | some (.hash h) => simp [getFoundation]
  | some (.schedule vs) => simp [getFoundation]

/-- **C54.** Exactly when a creation is accepted: at least 3.5 NEAR attached and well-formed
arguments (`u64` numbers, valid account ids). Then exactly one creation with the attached deposit starts
and the deposit leaves the factory. -/
theorem C54_accepted_iff {cfg : Cfg} (w : World) (who : AccountId) (att : Nat)
    (a : CreateArgs) :
    ((∃ r, create (mkEnv cfg w who att []) w.c a = .ok r) ↔
      35 * 10 ^ 23 ≤ att ∧ att < two128 ∧ cfg.validAccountId a.owner = true ∧
      a.lockupDuration < two64 ∧ (∀ t, a.lockupTimestamp = some t → t < two64) ∧
      (∀ t, a.releaseDuration = some t → t < two64) ∧
      (∀ vs, a.vesting = some (.schedule vs) → vs.start < two64 ∧ vs.cliff < two64 ∧ vs.finish < two64) ∧
      (∀ x, a.whitelist = some x → cfg.validAccountId x = true) ∧
      cfg.validAccountId (lockupId cfg.sha256 cfg.self a.owner) = true) ∧
    (step cfg w (.create who att a)).bal = w.bal ∧
    (step cfg w (.create who att a)).refunded = w.refunded ∧
    (step cfg w (.create who att a)).accounts = w.accounts ∧
    ((∃ r, create (mkEnv cfg w who att []) w.c a = .ok r) →
      ∃ args, (step cfg w (.create who att a)).receipts = w.receipts ++
        [.create ⟨lockupId cfg.sha256 cfg.self a.owner, att, .lockup, args⟩
          (lockupId cfg.sha256 cfg.self a.owner) att who]) ∧
    ((¬ ∃ r, create (mkEnv cfg w who att []) w.c a = .ok r) → step cfg w (.create who att a) = w) := by
  have ht : ∀ o : Option Nat, optLt o ↔ ∀ t, o = some t → t < two64 := by
    intro o; cases o <;> simp [optLt]
  have hv : vestingRange a.vesting ↔ ∀ vs, a.vesting = some (.schedule vs) →
      vs.start < two64 ∧ vs.cliff < two64 ∧ vs.finish < two64 := by
    match a.vesting with
    | none => simp [vestingRange]
    | some (.hash h) => simp [vestingRange]
    | some (.schedule vs) => simp [vestingRange]
  have hw : optValid cfg a.whitelist ↔ ∀ x, a.whitelist = some x → cfg.validAccountId x = true := by
    cases a.whitelist <;> simp [optValid]
  refine ⟨⟨?_, ?_⟩, ?_⟩
  · rintro ⟨⟨s, effs⟩, hx⟩
    obtain ⟨h, _⟩ := create_ok.mp hx
    exact ⟨h.enough, h.attRange, h.owner, h.duration, (ht _).mp h.timestamp, (ht _).mp h.release,
      hv.mp h.vesting, hw.mp h.whitelist, h.validId⟩
  · rintro ⟨h1, h2, h3, h4, h5, h6, h7, h8, h9⟩
    exact ⟨_, create_ok.mpr ⟨⟨h3, h4, (ht _).mpr h5, hv.mpr h7, (ht _).mpr h6, hw.mpr h8, h2, h1, h9⟩,
      rfl, rfl⟩⟩
  · simp only [step]
    split
    · rename_i s effs hx
      obtain ⟨_, _, rfl⟩ := create_ok.mp hx
      refine ⟨by simp [applyCall, createEff, Eff.out], by simp [applyCall, createEff, Eff.paidTo], rfl,
        fun _ => ⟨newArgs w.c a, rfl⟩, fun h => absurd ⟨_, hx⟩ h⟩
    · rename_i m hx
      refine ⟨rfl, rfl, rfl, fun ⟨r, h⟩ => ?_, fun _ => rfl⟩
      rw [hx] at h; cases h

/-- `alice` has one lockup, paid by `payer`; the second creation for `alice` and the one for the taken
id were refunded. -/
example : IsLockup (run demoCfg demo0 demo2) (lockupId demoSha "lockup.near" "alice") ∧
    ¬ IsLockup (run demoCfg demo0 demo2) (lockupId demoSha "lockup.near" "existing") ∧
    pending (run demoCfg demo0 demo2) = [] ∧ (run demoCfg demo0 demo2).bal = 5 ∧
    onLockups (run demoCfg demo0 demo2) "payer" = minAttachedBalance ∧
    (run demoCfg demo0 demo2).refunded "payer" = minAttachedBalance + 2 ∧
    (run demoCfg demo0 demo2).refunded "other" = minAttachedBalance + 1 := by
  rw [isLockup_iff, isLockup_iff]
  decide +kernel

/-! ## C54: deposits -/

/-- **C54.** At every moment the factory owns exactly its own tokens plus the deposits of failed
creations that are about to be refunded, and everything a caller ever attached to accepted creations is
on lockups created for that caller, or was transferred back to that caller, or belongs to a creation that
is still unfinished. -/
theorem C54_deposits_accounted {cfg : Cfg} {w0 : World} (hs : Started cfg w0) (evs : List Ev) :
    (run cfg w0 evs).bal = w0.bal + income evs + rsum Receipt.back (run cfg w0 evs).receipts ∧
    ∀ a, (run cfg w0 evs).attachedBy a = (run cfg w0 evs).refunded a + onLockups (run cfg w0 evs) a +
      pendingOf (run cfg w0 evs) a := by
  have h := reach_inv hs evs
  refine ⟨h.money, fun a => ?_⟩
  rw [h.ledger a, owed_eq h.receipts, onLockups_eq h]

/-- **C54.** When no creation is unfinished, the factory's balance is what it had at the beginning plus
what others gave it, and every caller's deposits are on their lockups or have been transferred back. -/
theorem C54_settled {cfg : Cfg} {w0 : World} (hs : Started cfg w0) (evs : List Ev)
    (hq : pending (run cfg w0 evs) = []) :
    (run cfg w0 evs).bal = w0.bal + income evs ∧
    ∀ a, (run cfg w0 evs).attachedBy a = (run cfg w0 evs).refunded a + onLockups (run cfg w0 evs) a := by
  obtain ⟨h1, h2⟩ := C54_deposits_accounted hs evs
  have hb : rsum Receipt.back (run cfg w0 evs).receipts = 0 := by
    unfold pending at hq
    rw [List.filterMap_eq_nil_iff] at hq
    generalize (run cfg w0 evs).receipts = l at hq
    induction l with
    | nil => rfl
    | cons r t ih =>
      have ih' := ih (fun q h => hq q (List.mem_cons_of_mem _ h))
      have hr := hq r (by simp)
      simp only [rsum, List.map_cons, List.sum_cons] at ih' ⊢
      rw [ih']
      match r, hr with
      | .create _ _ _ _, hr => cases hr
      | .callback _ _ _ true, _ => rfl
      | .callback _ _ _ false, hr => cases hr
  refine ⟨by omega, fun a => ?_⟩
  have := h2 a
  unfold pendingOf at this
  rw [hq] at this
  simpa using this

/-- **C54.** The fate of a creation when its receipt is executed. If the account is free and the
runtime has no reason of its own to fail, it now exists with exactly the deposit. Otherwise the deposit is
back at the factory, the accounts are as before, and the callback that refunds the caller is in flight. -/
theorem C54_creation_resolves {cfg : Cfg} {w0 : World} (hs : Started cfg w0) (evs : List Ev) {i : Nat}
    {b : Batch} {id : AccountId} {d : Nat} {caller : AccountId}
    (hr : (run cfg w0 evs).receipts[i]? = some (.create b id d caller)) (ok : Bool) :
    (ok = true ∧ cfg.existing id = false ∧ ¬ IsLockup (run cfg w0 evs) id →
      ∃ acc, (step cfg (run cfg w0 evs) (.deliver i ok)).accounts.get id = some acc ∧
        acc.lockup.bal = d ∧ acc.caller = caller ∧ acc.args = b.args ∧
        (step cfg (run cfg w0 evs) (.deliver i ok)).bal = (run cfg w0 evs).bal) ∧
    (¬ (ok = true ∧ cfg.existing id = false ∧ ¬ IsLockup (run cfg w0 evs) id) →
      .callback id d caller false ∈ (step cfg (run cfg w0 evs) (.deliver i ok)).receipts ∧
      (step cfg (run cfg w0 evs) (.deliver i ok)).accounts = (run cfg w0 evs).accounts ∧
      (step cfg (run cfg w0 evs) (.deliver i ok)).bal = (run cfg w0 evs).bal + d) := by
  have h := reach_inv hs evs
  generalize run cfg w0 evs = w at hr h
  obtain ⟨rfl, rfl, _, a, hacc, hargs, hid⟩ := h.receipts _ (List.mem_of_getElem? hr)
  rw [isLockup_iff]
  simp only [step, hr, execReceipt]
  cases hd : (if ok then deploy cfg { w with receipts := w.receipts.eraseIdx i } b caller else none) with
  | none =>
    refine ⟨?_, fun _ => by simp⟩
    rintro ⟨rfl, h1, h2⟩
    exfalso
    obtain ⟨c, hn, _⟩ := lockup_new_ok (cfg := cfg) (honest := true) (id := b.receiver)
      (deployer := cfg.self) (balance := b.deposit) (now := w.now) hacc h.valid.1 h.valid.2
    have hsub := lockupId_directSub cfg a.owner
    rw [← hid] at hsub
    simp only [if_true] at hd
    unfold deploy at hd
    rw [if_pos ⟨hsub, h1, by simpa using h2⟩, hargs] at hd
    simp only [hn] at hd
    cases hd
  | some acc =>
    obtain ⟨_, g2, g3, _, _, g6, g7, g8, _⟩ := deploy_some (deploy_of hd)
    have hok : ok = true := by
      cases ok with
      | true => rfl
      | false => cases hd
    refine ⟨fun _ => ⟨acc, by simp, g7, g6, g8, rfl⟩, fun hn => ?_⟩
    exact absurd ⟨hok, g2, by simpa using g3⟩ hn

/-- **C54.** The callback of a failed creation never fails: it transfers exactly the deposit to the
caller. -/
theorem C54_refund_never_fails {cfg : Cfg} {w0 : World} (hs : Started cfg w0) (evs : List Ev) {i : Nat}
    {id : AccountId} {d : Nat} {caller : AccountId}
    (hr : (run cfg w0 evs).receipts[i]? = some (.callback id d caller false)) (ok : Bool) :
    (∀ a, (step cfg (run cfg w0 evs) (.deliver i ok)).refunded a =
      (run cfg w0 evs).refunded a + if caller = a then d else 0) ∧
    (step cfg (run cfg w0 evs) (.deliver i ok)).bal + d = (run cfg w0 evs).bal := by
  have h := reach_inv hs evs
  generalize run cfg w0 evs = w at hr h
  have hle : d ≤ w.bal := by
    have h1 := h.money
    have h2 := rsum_le_of_mem Receipt.back (List.mem_of_getElem? hr)
    simp only [Receipt.back] at h2
    omega
  have hx : onLockupCreate (mkEnv cfg { w with receipts := w.receipts.eraseIdx i } cfg.self 0 [false])
      w.c id d caller = .ok (w.c, [.transfer caller d], false) :=
    callback_ok.mpr ⟨rfl, rfl, rfl, .inr ⟨rfl, hle, rfl, rfl⟩⟩
  simp only [step, hr, execReceipt, hx, applyCall, Eff.paidTo, Eff.out, List.map_cons, List.map_nil,
    List.sum_cons, List.sum_nil, Nat.add_zero]
  exact ⟨fun a => trivial, by omega⟩

/-! ## C53 -/

/-- **C53.** The arguments the factory passes on are always accepted by `new` of the lockup: when a
creation is executed (and the runtime does not fail it for a reason of its own), there is a lockup at
the id afterwards, unless the account existed before the factory. -/
theorem C53_lockup_new_accepts {cfg : Cfg} {w0 : World} (hs : Started cfg w0) (evs : List Ev) {i : Nat}
    {b : Batch} {id : AccountId} {d : Nat} {caller : AccountId}
    (hr : (run cfg w0 evs).receipts[i]? = some (.create b id d caller)) :
    IsLockup (step cfg (run cfg w0 evs) (.deliver i true)) id ↔ cfg.existing id = false := by
  obtain ⟨h1, h2⟩ := C54_creation_resolves hs evs hr true
  constructor
  · rintro ⟨acc, h⟩
    rw [← run_snoc] at h
    exact (C54_created_accounts hs _ h).2.1
  · intro he
    by_cases hl : IsLockup (run cfg w0 evs) id
    · obtain ⟨acc, hl⟩ := hl
      exact ⟨acc, accounts_step cfg _ _ id acc hl⟩
    · obtain ⟨acc, h, _⟩ := h1 ⟨rfl, he, hl⟩
      exact ⟨acc, h⟩

/-- Both outcomes occur. -/
example : IsLockup (step demoCfg (run demoCfg demo0 demo1) (.deliver 0 true))
      (lockupId demoSha "lockup.near" "alice") ∧
    ¬ IsLockup (step demoCfg (run demoCfg demo0 demo1) (.deliver 2 true))
      (lockupId demoSha "lockup.near" "existing") ∧ (run demoCfg demo0 demo1).receipts.length = 3 := by
  rw [isLockup_iff, isLockup_iff]
  decide +kernel

end Verif.LockupFactory
