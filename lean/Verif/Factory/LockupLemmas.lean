import Verif.Factory.LockupF
import Verif.Factory.PoolLemmas

/-! # Lockup factory: inversion lemmas and invariant -/

namespace Verif.LockupFactory

open Verif Verif.Factory

/-! ## Lists of receipts -/

/-- Sum over the receipts in flight. -/
def rsum (f : Receipt → Nat) (l : List Receipt) : Nat := (l.map f).sum

theorem rsum_append (f : Receipt → Nat) (l1 l2 : List Receipt) :
    rsum f (l1 ++ l2) = rsum f l1 + rsum f l2 := by simp [rsum]

theorem rsum_single (f : Receipt → Nat) (r : Receipt) : rsum f [r] = f r := by simp [rsum]

theorem rsum_eraseIdx (f : Receipt → Nat) {l : List Receipt} {i : Nat} {r : Receipt}
    (h : l[i]? = some r) : rsum f (l.eraseIdx i) + f r = rsum f l := by
  induction l generalizing i with
  | nil => simp at h
  | cons x t ih =>
    cases i with
    | zero => simp at h; subst h; simp [rsum]; omega
    | succ i =>
      simp only [List.getElem?_cons_succ] at h
      have := ih h
      simp only [List.eraseIdx_cons_succ, rsum, List.map_cons, List.sum_cons] at this ⊢
      omega

theorem rsum_le_of_mem (f : Receipt → Nat) {l : List Receipt} {r : Receipt} (h : r ∈ l) :
    f r ≤ rsum f l := by
  obtain ⟨i, hi⟩ := List.getElem?_of_mem h
  have := rsum_eraseIdx f hi
  omega

/-! ## Inversion -/

/-- Integers in range (JSON decoding). -/
def optLt : Option Nat → Prop
  | none => True
  | some n => n < two64

/-- Integers of a schedule in range. -/
def vestingRange : Option Lockup.ScheduleOrHash → Prop
  | some (.schedule vs) => vs.start < two64 ∧ vs.cliff < two64 ∧ vs.finish < two64
  | _ => True

/-- Optional id valid. -/
def optValid (cfg : Cfg) : Option AccountId → Prop
  | none => True
  | some a => cfg.validAccountId a = true

/-- The conditions under which `create` is accepted. -/
structure Accepts (cfg : Cfg) (att : Nat) (a : CreateArgs) : Prop where
  owner : cfg.validAccountId a.owner = true
  duration : a.lockupDuration < two64
  timestamp : optLt a.lockupTimestamp
  vesting : vestingRange a.vesting
  release : optLt a.releaseDuration
  whitelist : optValid cfg a.whitelist
  attRange : att < two128
  enough : minAttachedBalance ≤ att
  validId : cfg.validAccountId (lockupId cfg.sha256 cfg.self a.owner) = true

theorem decodeOptU64_ok {o : Option Nat} {u : Unit} : Lockup.decodeOptU64 o = .ok u ↔ optLt o := by
  cases o <;> simp [Lockup.decodeOptU64, Lockup.decodeU64, optLt, pure_ok]

theorem decodeVesting_ok {o : Option Lockup.ScheduleOrHash} {u : Unit} :
    decodeVesting o = .ok u ↔ vestingRange o := by
  match o with
  | none => simp [decodeVesting, vestingRange, pure_ok]
  | some (.hash h) => simp [decodeVesting, vestingRange, pure_ok]
  | some (.schedule vs) =>
    simp only [decodeVesting, vestingRange, Lockup.decodeSchedule, Lockup.decodeU64, bind_ok, require_ok]
    constructor
    · rintro ⟨_, h1, _, h2, h3⟩; exact ⟨h1, h2, h3⟩
    · rintro ⟨h1, h2, h3⟩; exact ⟨(), h1, (), h2, h3⟩

theorem decodeOptId_ok {cfg : Cfg} {w : World} {who : AccountId} {att : Nat} {rs : List Bool}
    {o : Option AccountId} {u : Unit} :
    decodeOptId (mkEnv cfg w who att rs) o = .ok u ↔ optValid cfg o := by
  cases o with
  | none => simp [decodeOptId, optValid, pure_ok]
  | some a => simp only [decodeOptId, decodeId, require_ok, optValid]; exact Iff.rfl

/-- The promise of an accepted `create`. -/
def createEff (cfg : Cfg) (s : State) (who : AccountId) (att : Nat) (a : CreateArgs) : Eff :=
  .create
    { receiver := lockupId cfg.sha256 cfg.self a.owner, deposit := att, code := .lockup,
      args := newArgs s a }
    (lockupId cfg.sha256 cfg.self a.owner) att who

theorem create_ok {cfg : Cfg} {w : World} {who : AccountId} {att : Nat} {s s' : State}
    {a : CreateArgs} {effs : List Eff} :
    create (mkEnv cfg w who att []) s a = .ok (s', effs) ↔
      Accepts cfg att a ∧ s' = s ∧ effs = [createEff cfg s who att a] := by
  simp only [create, decodeId, Lockup.decodeU64, bind_ok, require_ok, decodeOptU64_ok, decodeVesting_ok,
    decodeOptId_ok, pure_ok, Prod.mk.injEq]
  constructor
  · rintro ⟨_, h1, _, h2, _, h3, _, h4, _, h5, _, h6, _, h7, _, h8, _, h9, h10, h11⟩
    exact ⟨⟨h1, h2, h3, h4, h5, h6, h7, h8, h9⟩, h10.symm, h11.symm⟩
  · rintro ⟨⟨h1, h2, h3, h4, h5, h6, h7, h8, h9⟩, h10, h11⟩
    exact ⟨(), h1, (), h2, (), h3, (), h4, (), h5, (), h6, (), h7, (), h8, (), h9, h10.symm, h11.symm⟩

theorem isPromiseSuccess_ok {e : Env} {b : Bool} :
    isPromiseSuccess e = .ok b ↔ e.promiseResults = [b] := by
  unfold isPromiseSuccess
  match e.promiseResults with
  | [] => simp
  | [x] => simp [pure_ok]
  | _ :: _ :: _ => simp

theorem callback_ok {e : Env} {s s' : State} {id : AccountId} {d : Nat} {caller : AccountId}
    {effs : List Eff} {v : Bool} :
    onLockupCreate e s id d caller = .ok (s', effs, v) ↔
      e.attachedDeposit = 0 ∧ e.predecessor = e.self ∧ s' = s ∧
      ((e.promiseResults = [true] ∧ effs = [] ∧ v = true) ∨
       (e.promiseResults = [false] ∧ d ≤ e.accountBalance ∧ effs = [.transfer caller d] ∧ v = false)) := by
  simp only [onLockupCreate, notPayable, bind_ok, require_ok, isPromiseSuccess_ok]
  constructor
  · rintro ⟨_, h1, _, h2, b, h3, h4⟩
    refine ⟨h1, h2, ?_⟩
    cases b with
    | true =>
      simp only [if_true, pure_ok, Prod.mk.injEq] at h4
      obtain ⟨h5, h6, h7⟩ := h4
      exact ⟨h5.symm, .inl ⟨h3, h6.symm, h7.symm⟩⟩
    | false =>
      simp only [Bool.false_eq_true, if_false, bind_ok, require_ok, pure_ok, Prod.mk.injEq] at h4
      obtain ⟨_, h4, h5, h6, h7⟩ := h4
      exact ⟨h5.symm, .inr ⟨h3, h4, h6.symm, h7.symm⟩⟩
  · rintro ⟨h1, h2, h5, ⟨h3, h6, h7⟩ | ⟨h3, h4, h6, h7⟩⟩
    · refine ⟨(), h1, (), h2, true, h3, ?_⟩
      simp only [if_true, pure_ok, Prod.mk.injEq]
      exact ⟨h5.symm, h6.symm, h7.symm⟩
    · refine ⟨(), h1, (), h2, false, h3, ?_⟩
      simp only [Bool.false_eq_true, if_false, bind_ok, require_ok, pure_ok, Prod.mk.injEq]
      exact ⟨(), h4, h5.symm, h6.symm, h7.symm⟩

/-- Nobody can run the callback by a direct call, not even the factory account. -/
theorem callCallback_step {cfg : Cfg} {w : World} {who : AccountId} {att : Nat} {id : AccountId} {d : Nat}
    {caller : AccountId} : step cfg w (.callCallback who att id d caller) = w := by
  simp only [step]
  cases h : onLockupCreate (mkEnv cfg w who att []) w.c id d caller with
  | error m => rfl
  | ok r =>
    obtain ⟨s, effs, v⟩ := r
    obtain ⟨_, _, _, ⟨h3, _⟩ | ⟨h3, _⟩⟩ := callback_ok.mp h
    · simp [mkEnv] at h3
    · simp [mkEnv] at h3

/-- The arguments prepared by the factory are accepted by `new` of the lockup. -/
theorem lockup_new_ok {cfg : Cfg} {honest : Bool} {id deployer : AccountId} {s : State} {a : CreateArgs}
    {att balance now : Nat} (ha : Accepts cfg att a)
    (hf : cfg.validAccountId s.foundation = true) (hw : cfg.validAccountId s.whitelist = true) :
    ∃ c, Lockup.new (Lockup.initEnv (lockupCfg cfg honest id) deployer balance now) false (newArgs s a) = .ok c ∧
      c.owner = a.owner ∧ (c.foundation = if a.vesting.isSome then some s.foundation else none) ∧
      c.info.transfers = .enabled transfersStarted ∧ c.info.lockupAmount = balance ∧
      c.info.lockupDuration = a.lockupDuration ∧ c.info.lockupTimestamp = a.lockupTimestamp ∧
      c.info.releaseDuration = a.releaseDuration ∧
      (c.vesting = match a.vesting with
        | none => .none
        | some (.hash h) => .hash h
        | some (.schedule vs) => .schedule vs) ∧
      c.whitelist = a.whitelist.getD s.whitelist ∧ c.staking = none := by
  have hts : transfersStarted < two64 := by decide
  have hwl : cfg.validAccountId (newArgs s a).whitelist = true := by
    have := ha.whitelist
    simp only [newArgs]
    cases h : a.whitelist with
    | none => exact hw
    | some x => rw [h] at this; exact this
  have hwd : (newArgs s a).whitelist = a.whitelist.getD s.whitelist := by
    simp only [newArgs]; cases a.whitelist <;> rfl
  have hvr := ha.vesting
  obtain ⟨v, hv1, hv2, hv3⟩ : ∃ v, Lockup.initVesting (newArgs s a).foundation (newArgs s a).vesting = .ok v ∧
      (v = .none ∨ ∃ f, (newArgs s a).foundation = some f ∧
        (Lockup.initEnv (lockupCfg cfg honest id) deployer balance now).validAccountId f = true) ∧
      (v = match a.vesting with
        | none => .none
        | some (.hash h) => .hash h
        | some (.schedule vs) => .schedule vs) := by
    simp only [newArgs]
    match hvest : a.vesting with
    | none =>
      refine ⟨.none, ?_, .inl rfl, rfl⟩
      simp [Lockup.initVesting, require, pure, Except.pure, bind, Except.bind]
    | some (.hash h) => exact ⟨.hash h, rfl, .inr ⟨_, rfl, hf⟩, rfl⟩
    | some (.schedule vs) =>
      rw [hvest] at hvr
      refine ⟨.schedule vs, ?_, .inr ⟨_, rfl, hf⟩, rfl⟩
      simp only [Lockup.initVesting, Lockup.decodeSchedule, Lockup.decodeU64, bind_ok, require_ok, pure_ok]
      exact ⟨(), ⟨(), hvr.1, (), hvr.2.1, hvr.2.2⟩, trivial⟩
  refine ⟨{ owner := a.owner
            info := { lockupAmount := balance, terminationWithdrawn := 0,
                      lockupDuration := a.lockupDuration, releaseDuration := a.releaseDuration,
                      lockupTimestamp := a.lockupTimestamp, transfers := .enabled transfersStarted }
            vesting := v, whitelist := (newArgs s a).whitelist, staking := none
            foundation := (newArgs s a).foundation }, ?_, rfl, rfl, rfl, rfl, rfl, rfl, rfl, hv3, hwd, rfl⟩
  have h1 : Lockup.decodeU64 a.lockupDuration = .ok () := require_ok.mpr ha.duration
  have h2 : Lockup.decodeOptU64 a.lockupTimestamp = .ok () := decodeOptU64_ok.mpr ha.timestamp
  have h3 : Lockup.decodeOptU64 a.releaseDuration = .ok () := decodeOptU64_ok.mpr ha.release
  have h4 : Lockup.checkFoundation (Lockup.initEnv (lockupCfg cfg honest id) deployer balance now) v
      (newArgs s a).foundation = .ok () := by
    unfold Lockup.checkFoundation require
    rw [if_pos hv2]
  simp only [Lockup.new, bind_ok]
  exact ⟨(), rfl, (), rfl, (), h1, (), h2, (), h3, (), require_ok.mpr ha.owner, (), require_ok.mpr hwl, (),
    rfl, v, hv1, (), h4, rfl⟩

/-! ## The invariant -/

/-- Deposit of a failed creation that has come back to the factory. -/
def Receipt.back : Receipt → Nat
  | .callback _ d _ false => d
  | _ => 0

/-- Deposit of an unfinished creation of caller `a`. -/
def Receipt.owed (a : AccountId) : Receipt → Nat
  | .create _ _ d c => if c = a then d else 0
  | .callback _ d c false => if c = a then d else 0
  | _ => 0

/-- What holds of every receipt. -/
def ReceiptOk (cfg : Cfg) (s : State) : Receipt → Prop
  | .create b id d _ => b.receiver = id ∧ b.deposit = d ∧ b.code = .lockup ∧
      ∃ a, Accepts cfg d a ∧ b.args = newArgs s a ∧ id = lockupId cfg.sha256 cfg.self a.owner
  | .callback _ _ _ _ => True

/-- What holds of every created account. -/
structure AccountOk (cfg : Cfg) (s : State) (id : AccountId) (acc : Created) : Prop where
  code : acc.code = .lockup
  fresh : cfg.existing id = false
  args : ∃ a, Accepts cfg acc.deposit a ∧ acc.args = newArgs s a ∧ id = lockupId cfg.sha256 cfg.self a.owner
  started : ∀ honest, Lockup.Started (lockupCfg cfg honest id) acc.args acc.lockup
  deposit : acc.lockup.bal = acc.deposit

/-- Invariant; `base` is what the factory owns itself. -/
structure FInv (cfg : Cfg) (base : Nat) (s : State) (w : World) : Prop where
  state : w.c = s
  valid : cfg.validAccountId s.foundation = true ∧ cfg.validAccountId s.whitelist = true
  receipts : ∀ r ∈ w.receipts, ReceiptOk cfg s r
  accounts : ∀ id acc, w.accounts.get id = some acc → AccountOk cfg s id acc
  money : w.bal = base + rsum Receipt.back w.receipts
  ledger : ∀ a, w.attachedBy a = w.refunded a +
    w.accounts.sum (fun _ acc => if acc.caller = a then acc.deposit else 0) +
    rsum (Receipt.owed a) w.receipts

theorem lockupId_directSub (cfg : Cfg) (owner : AccountId) :
    directSub cfg.self (lockupId cfg.sha256 cfg.self owner) = true := by
  unfold lockupId
  rw [directSub_subAccount, decide_eq_true_eq, String.toList_ofList]
  intro h
  have := AccountIds.hexEncode_alnum _ _ h
  simp [AccountIds.alnum] at this

theorem finv_create {cfg : Cfg} {base : Nat} {s : State} {w : World} (hi : FInv cfg base s w)
    (who : AccountId) (att : Nat) (a : CreateArgs) : FInv cfg base s (step cfg w (.create who att a)) := by
  simp only [step]
  cases hx : create (mkEnv cfg w who att []) w.c a with
  | error m => exact hi
  | ok r =>
    obtain ⟨s', effs⟩ := r
    obtain ⟨hacc, rfl, rfl⟩ := create_ok.mp hx
    have hst := hi.state
    have hrec : ∀ f : Receipt → Nat, rsum f (w.receipts ++
        ([createEff cfg w.c who att a].flatMap Eff.receipt)) = rsum f w.receipts +
        f (.create ⟨lockupId cfg.sha256 cfg.self a.owner, att, .lockup, newArgs w.c a⟩
          (lockupId cfg.sha256 cfg.self a.owner) att who) := by
      intro f; rw [rsum_append]; simp [createEff, Eff.receipt, rsum]
    refine ⟨hst, hi.valid, ?_, hi.accounts, ?_, ?_⟩
    · intro r hr
      simp only [applyCall] at hr
      rcases List.mem_append.mp hr with hr | hr
      · exact hi.receipts r hr
      · simp only [createEff, Eff.receipt, List.flatMap_cons, List.flatMap_nil, List.append_nil,
          List.mem_singleton] at hr
        subst hr
        exact ⟨rfl, rfl, rfl, a, hacc, by rw [hst], rfl⟩
    · simp only [applyCall]
      rw [hrec]
      have := hi.money
      simp only [Receipt.back, createEff, Eff.out, List.map_cons, List.map_nil, List.sum_cons, List.sum_nil]
      omega
    · intro x
      simp only [applyCall]
      rw [hrec]
      have := hi.ledger x
      simp only [Receipt.owed, createEff, Eff.paidTo, List.map_cons, List.map_nil, List.sum_cons,
        List.sum_nil]
      omega

theorem deploy_some {cfg : Cfg} {w : World} {b : Batch} {caller : AccountId} {acc : Created}
    (h : deploy cfg w b caller = some acc) :
    directSub cfg.self b.receiver = true ∧ cfg.existing b.receiver = false ∧
    w.accounts.contains b.receiver = false ∧ acc.code = b.code ∧ acc.deposit = b.deposit ∧
    acc.caller = caller ∧ acc.lockup.bal = b.deposit ∧ acc.args = b.args ∧
    ∃ c, Lockup.new (Lockup.initEnv (lockupCfg cfg true b.receiver) cfg.self b.deposit w.now) false b.args
      = .ok c ∧ acc.lockup = Lockup.initWorld c b.deposit w.now := by
  unfold deploy at h
  split at h
  · rename_i hc
    split at h
    · rename_i c hn
      cases h
      exact ⟨hc.1, hc.2.1, hc.2.2, rfl, rfl, rfl, rfl, rfl, c, hn, rfl⟩
    · cases h
  · cases h

theorem finv_receipt {cfg : Cfg} {base : Nat} {s : State} {w : World} (hi : FInv cfg base s w) {i : Nat}
    {r : Receipt} (hr : w.receipts[i]? = some r) (ok : Bool) :
    FInv cfg base s (execReceipt cfg { w with receipts := w.receipts.eraseIdx i } ok r) := by
  have hmem : r ∈ w.receipts := List.mem_of_getElem? hr
  have hrok := hi.receipts r hmem
  have hers := fun f => rsum_eraseIdx f hr
  have hold : ∀ q ∈ w.receipts.eraseIdx i, ReceiptOk cfg s q :=
    fun q hq => hi.receipts q (List.mem_of_mem_eraseIdx hq)
  match r, hr, hmem, hrok, hers with
  | .create b id d caller, hr, hmem, hrok, hers =>
    obtain ⟨rfl, rfl, hcode, a, hacc, hargs, hid⟩ := hrok
    simp only [execReceipt]
    cases hd : (if ok then deploy cfg { w with receipts := w.receipts.eraseIdx i } b caller else none) with
    | some acc =>
      simp only
      have hd' : deploy cfg { w with receipts := w.receipts.eraseIdx i } b caller = some acc := by
        cases ok with
        | true => exact hd
        | false => cases hd
      obtain ⟨g1, g2, g3, g4, g5, g6, g7, ga, c, g8, g9⟩ := deploy_some hd'
      refine ⟨hi.state, hi.valid, ?_, ?_, ?_, ?_⟩
      · intro q hq
        rcases List.mem_append.mp hq with hq | hq
        · exact hold q hq
        · simp only [List.mem_singleton] at hq
          subst hq
          trivial
      · intro j acc' hj
        simp only [UMap.get_insert] at hj
        split at hj
        · rename_i he; cases hj; subst he
          refine ⟨by rw [g4, hcode], g2, ⟨a, by rw [g5]; exact hacc, by rw [ga, hargs], hid⟩, ?_, by rw [g7, g5]⟩
          intro honest
          exact ⟨cfg.self, b.deposit, w.now, c, hacc.attRange, by rw [ga]; exact g8, g9⟩
        · exact hi.accounts j acc' hj
      · have h1 := hi.money
        have h2 := hers Receipt.back
        simp only [Receipt.back] at h2
        simp only
        rw [rsum_append, rsum_single]
        simp only [Receipt.back]
        omega
      · intro x
        have h1 := hi.ledger x
        have h2 := hers (Receipt.owed x)
        simp only [Receipt.owed] at h2
        simp only
        rw [rsum_append, rsum_single]
        simp only [Receipt.owed]
        have h3 := UMap.sum_insert w.accounts b.receiver acc
          (fun _ acc => if acc.caller = x then acc.deposit else 0)
        have h4 : w.accounts.part (fun _ acc => if acc.caller = x then acc.deposit else 0) b.receiver = 0 := by
          have : w.accounts.get b.receiver = none := by
            simpa [PoolFactory.contains_eq] using g3
          unfold UMap.part; rw [this]
        rw [h4, g5, g6] at h3
        omega
    | none =>
      simp only
      refine ⟨hi.state, hi.valid, ?_, hi.accounts, ?_, ?_⟩
      · intro q hq
        rcases List.mem_append.mp hq with hq | hq
        · exact hold q hq
        · simp only [List.mem_singleton] at hq
          subst hq
          trivial
      · have h1 := hi.money
        have h2 := hers Receipt.back
        simp only [Receipt.back] at h2
        simp only
        rw [rsum_append, rsum_single]
        simp only [Receipt.back]
        omega
      · intro x
        have h1 := hi.ledger x
        have h2 := hers (Receipt.owed x)
        simp only [Receipt.owed] at h2
        simp only
        rw [rsum_append, rsum_single]
        simp only [Receipt.owed]
        omega
  | .callback id d caller true, hr, hmem, hrok, hers =>
    have hx : onLockupCreate (mkEnv cfg { w with receipts := w.receipts.eraseIdx i } cfg.self 0 [true])
        w.c id d caller = .ok (w.c, [], true) :=
      callback_ok.mpr ⟨rfl, rfl, rfl, .inl ⟨rfl, rfl, rfl⟩⟩
    simp only [execReceipt, hx]
    refine ⟨hi.state, hi.valid, ?_, hi.accounts, ?_, ?_⟩
    · intro q hq
      simp only [applyCall, List.flatMap_nil, List.append_nil] at hq
      exact hold q hq
    · have h1 := hi.money
      have h2 := hers Receipt.back
      simp only [Receipt.back] at h2
      simp only [applyCall, List.flatMap_nil, List.append_nil, List.map_nil, List.sum_nil]
      omega
    · intro x
      have h1 := hi.ledger x
      have h2 := hers (Receipt.owed x)
      simp only [Receipt.owed] at h2
      simp only [applyCall, List.flatMap_nil, List.append_nil, List.map_nil, List.sum_nil]
      omega
  | .callback id d caller false, hr, hmem, hrok, hers =>
    have hle : d ≤ w.bal := by
      have h1 := hi.money
      have h2 := rsum_le_of_mem Receipt.back hmem
      simp only [Receipt.back] at h2
      omega
    have hx : onLockupCreate (mkEnv cfg { w with receipts := w.receipts.eraseIdx i } cfg.self 0 [false])
        w.c id d caller = .ok (w.c, [.transfer caller d], false) :=
      callback_ok.mpr ⟨rfl, rfl, rfl, .inr ⟨rfl, hle, rfl, rfl⟩⟩
    simp only [execReceipt, hx]
    refine ⟨hi.state, hi.valid, ?_, hi.accounts, ?_, ?_⟩
    · intro q hq
      simp only [applyCall, Eff.receipt, List.flatMap_cons, List.flatMap_nil, List.append_nil] at hq
      exact hold q hq
    · have h1 := hi.money
      have h2 := hers Receipt.back
      simp only [Receipt.back] at h2
      simp only [applyCall, Eff.receipt, Eff.out, List.flatMap_cons, List.flatMap_nil, List.append_nil,
        List.map_cons, List.map_nil, List.sum_cons, List.sum_nil]
      omega
    · intro x
      have h1 := hi.ledger x
      have h2 := hers (Receipt.owed x)
      simp only [Receipt.owed] at h2
      simp only [applyCall, Eff.receipt, Eff.paidTo, List.flatMap_cons, List.flatMap_nil, List.append_nil,
        List.map_cons, List.map_nil, List.sum_cons, List.sum_nil]
      omega

/-- What an event adds to the factory's own tokens. -/
def Ev.gain : Ev → Nat
  | .income n => n
  | _ => 0

theorem finv_step {cfg : Cfg} {base : Nat} {s : State} {w : World} (hi : FInv cfg base s w) (ev : Ev) :
    FInv cfg (base + ev.gain) s (step cfg w ev) := by
  cases ev with
  | create who att a => exact finv_create hi who att a
  | callCallback who att id d caller => rw [callCallback_step]; exact hi
  | deliver i ok =>
    simp only [step]
    cases hr : w.receipts[i]? with
    | some r => exact finv_receipt hi hr ok
    | none => exact hi
  | income n =>
    refine ⟨hi.state, hi.valid, hi.receipts, hi.accounts, ?_, hi.ledger⟩
    have := hi.money
    show w.bal + n = base + n + rsum Receipt.back w.receipts
    omega
  | tick dt => exact ⟨hi.state, hi.valid, hi.receipts, hi.accounts, hi.money, hi.ledger⟩

theorem income_cons (ev : Ev) (l : List Ev) : income (ev :: l) = ev.gain + income l := by
  cases ev <;> simp [income, Ev.gain]

theorem finv_run {cfg : Cfg} {base : Nat} {s : State} {w : World} (hi : FInv cfg base s w)
    (evs : List Ev) : FInv cfg (base + income evs) s (run cfg w evs) := by
  unfold run
  induction evs generalizing w base with
  | nil => exact hi
  | cons ev t ih =>
    rw [income_cons, ← Nat.add_assoc]
    exact ih (finv_step hi ev)

theorem started_finv {cfg : Cfg} {w0 : World} (h : Started cfg w0) : FInv cfg w0.bal w0.c w0 := by
  obtain ⟨who, wl, fd, s, bal, now, hn, rfl⟩ := h
  simp only [new, decodeId, notPayable, bind_ok, require_ok, pure_ok] at hn
  obtain ⟨_, _, _, h2, _, h3, _, _, _, _, rfl⟩ := hn
  refine ⟨rfl, ⟨h3, h2⟩, fun r hr => ?_, fun id acc h => ?_, rfl, fun a => rfl⟩
  · cases hr
  · simp at h

end Verif.LockupFactory
