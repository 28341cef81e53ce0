import Verif.Factory.Pool

/-! # Staking pool factory: inversion lemmas and invariant -/

namespace Verif.PoolFactory

open Verif Verif.Factory

/-! ## Lists of receipts -/

/-- Sum over the receipts in flight. -/
def rsum (f : Receipt → Nat) (l : List Receipt) : Nat := (l.map f).sum

@[simp] theorem rsum_nil (f : Receipt → Nat) : rsum f [] = 0 := rfl

theorem rsum_append (f : Receipt → Nat) (l1 l2 : List Receipt) :
    rsum f (l1 ++ l2) = rsum f l1 + rsum f l2 := by simp [rsum]

theorem rsum_single (f : Receipt → Nat) (r : Receipt) : rsum f [r] = f r := by simp [rsum]

theorem rsum_eraseIdx (f : Receipt → Nat) {l : List Receipt} {i : Nat} {r : Receipt}
    (h : l[i]? = some r) : rsum f (l.eraseIdx i) + f r = rsum f l := by
  induction l generalizing i with
  | nil => simp at h
  | cons x t ih =>
    cases i with
    | zero => simp at h; subst h; simp [rsum]; omega
    | succ i =>
      simp only [List.getElem?_cons_succ] at h
      have := ih h
      simp only [List.eraseIdx_cons_succ, rsum, List.map_cons, List.sum_cons] at this ⊢
      omega

theorem rsum_le_of_mem (f : Receipt → Nat) {l : List Receipt} {r : Receipt} (h : r ∈ l) :
    f r ≤ rsum f l := by
  obtain ⟨i, hi⟩ := List.getElem?_of_mem h
  have := rsum_eraseIdx f hi
  omega

/-! ## Inversion -/

/-- The conditions under which `create_staking_pool` is accepted. -/
structure Accepts (cfg : Cfg) (s : State) (att : Nat) (poolId owner : AccountId)
    (fee : StakingPool.Fee) : Prop where
  feeRange : fee.numerator < two32 ∧ fee.denominator < two32
  attRange : att < two128
  enough : minAttachedBalance ≤ att
  noDot : '.' ∉ poolId.toList
  validId : cfg.validAccountId (subAccount poolId cfg.self) = true
  validOwner : cfg.validAccountId owner = true
  fee : fee.denominator ≠ 0 ∧ fee.numerator ≤ fee.denominator
  fresh : s.poolIds.contains (subAccount poolId cfg.self) = false

/-- The promise of an accepted `create_staking_pool`. -/
def createEff (cfg : Cfg) (who : AccountId) (att : Nat) (poolId owner : AccountId) (key : PublicKey)
    (fee : StakingPool.Fee) : Eff :=
  .create
    { receiver := subAccount poolId cfg.self, deposit := att, code := .stakingPool,
      owner := owner, key := key, fee := fee }
    (subAccount poolId cfg.self) att who

theorem create_ok {cfg : Cfg} {w : World} {who : AccountId} {att : Nat} {s s' : State}
    {poolId owner : AccountId} {key : PublicKey} {fee : StakingPool.Fee} {effs : List Eff} :
    createStakingPool (mkEnv cfg w who att []) s poolId owner key fee = .ok (s', effs) ↔
      Accepts cfg s att poolId owner fee ∧
      s' = { s with poolIds := s.poolIds.insert (subAccount poolId cfg.self) () } ∧
      effs = [createEff cfg who att poolId owner key fee] := by
  simp only [createStakingPool, StakingPool.Fee.decode, StakingPool.Fee.assertValid, bind_ok, require_ok,
    pure_ok, Prod.mk.injEq]
  constructor
  · rintro ⟨_, h1, _, h2, _, h3, _, h4, _, h5, _, h6, _, ⟨_, h7, h8⟩, _, h9, h10, h11⟩
    exact ⟨⟨h1, h2, h3, h4, h5, h6, ⟨h7, h8⟩, h9⟩, h10.symm, h11.symm⟩
  · rintro ⟨⟨h1, h2, h3, h4, h5, h6, ⟨h7, h8⟩, h9⟩, h10, h11⟩
    exact ⟨(), h1, (), h2, (), h3, (), h4, (), h5, (), h6, (), ⟨(), h7, h8⟩, (), h9, h10.symm, h11.symm⟩

theorem isPromiseSuccess_ok {e : Env} {b : Bool} :
    isPromiseSuccess e = .ok b ↔ e.promiseResults = [b] := by
  unfold isPromiseSuccess
  match e.promiseResults with
  | [] => simp
  | [x] => simp [pure_ok]
  | _ :: _ :: _ => simp

theorem callback_ok {e : Env} {s s' : State} {id : AccountId} {d : Nat} {caller : AccountId}
    {effs : List Eff} {v : Option Bool} :
    onStakingPoolCreate e s id d caller = .ok (s', effs, v) ↔
      e.attachedDeposit = 0 ∧ e.predecessor = e.self ∧
      ((e.promiseResults = [true] ∧ s' = s ∧ effs = [.whitelist s.whitelistId id] ∧ v = none) ∨
       (e.promiseResults = [false] ∧ d ≤ e.accountBalance ∧
        s' = { s with poolIds := s.poolIds.remove id } ∧ effs = [.transfer caller d] ∧ v = some false)) := by
  simp only [onStakingPoolCreate, notPayable, bind_ok, require_ok, isPromiseSuccess_ok]
  constructor
  · rintro ⟨_, h1, _, h2, b, h3, h4⟩
    refine ⟨h1, h2, ?_⟩
    cases b with
    | true =>
      simp only [if_true, pure_ok, Prod.mk.injEq] at h4
      obtain ⟨h5, h6, h7⟩ := h4
      exact .inl ⟨h3, h5.symm, h6.symm, h7.symm⟩
    | false =>
      simp only [Bool.false_eq_true, if_false, bind_ok, require_ok, pure_ok, Prod.mk.injEq] at h4
      obtain ⟨_, h4, h5, h6, h7⟩ := h4
      exact .inr ⟨h3, h4, h5.symm, h6.symm, h7.symm⟩
  · rintro ⟨h1, h2, ⟨h3, h5, h6, h7⟩ | ⟨h3, h4, h5, h6, h7⟩⟩
    · refine ⟨(), h1, (), h2, true, h3, ?_⟩
      simp only [if_true, pure_ok, Prod.mk.injEq]
      exact ⟨h5.symm, h6.symm, h7.symm⟩
    · refine ⟨(), h1, (), h2, false, h3, ?_⟩
      simp only [Bool.false_eq_true, if_false, bind_ok, require_ok, pure_ok, Prod.mk.injEq]
      exact ⟨(), h4, h5.symm, h6.symm, h7.symm⟩

/-- Nobody can run the callback by a direct call, not even the factory account. -/
theorem callCallback_step {cfg : Cfg} {w : World} {who : AccountId} {att : Nat} {id : AccountId} {d : Nat}
    {caller : AccountId} : step cfg w (.callCallback who att id d caller) = w := by
  simp only [step]
  cases h : onStakingPoolCreate (mkEnv cfg w who att []) w.c id d caller with
  | error m => rfl
  | ok r =>
    obtain ⟨s, effs, v⟩ := r
    obtain ⟨_, _, ⟨h3, _⟩ | ⟨h3, _⟩⟩ := callback_ok.mp h
    · simp [mkEnv] at h3
    · simp [mkEnv] at h3

theorem pool_new_ok {cfg : Cfg} {id deployer owner : AccountId} {key : PublicKey} {fee : StakingPool.Fee}
    {balance epoch : Nat} (hf : fee.numerator < two32 ∧ fee.denominator < two32)
    (hfv : fee.denominator ≠ 0 ∧ fee.numerator ≤ fee.denominator)
    (ho : cfg.validAccountId owner = true) (hb : minAttachedBalance ≤ balance) :
    (∃ r, StakingPool.new (StakingPool.initEnv (poolCfg cfg id) deployer balance epoch) false owner key fee
      = .ok r) ↔ cfg.validPublicKey key = true := by
  have hfund : StakingPool.guaranteeFund ≤ balance := by
    unfold minAttachedBalance at hb; unfold StakingPool.guaranteeFund; omega
  simp only [StakingPool.new, StakingPool.Fee.decode, StakingPool.Fee.assertValid, bind_ok, require_ok,
    subU_ok, pure_ok, StakingPool.internalRestake]
  simp only [Bool.false_eq_true, if_false, bind_ok, require_ok, pure_ok]
  constructor
  · rintro ⟨r, _, _, _, _, _, _, _, _, _, _, _, _, _, _, _, ⟨_, h, _⟩, _⟩
    exact h
  · intro hk
    exact ⟨_, (), rfl, (), hf, (), trivial, (), ⟨(), hfv.1, hfv.2⟩, (), ho, _, ⟨hfund, rfl⟩, (), rfl, _, ⟨(), hk, rfl⟩, rfl⟩

/-! ## The invariant -/

/-- 1 for a creation that has neither succeeded nor been rolled back. -/
def Receipt.open (id : AccountId) : Receipt → Nat
  | .create _ i _ _ => if i = id then 1 else 0
  | .callback i _ _ false => if i = id then 1 else 0
  | _ => 0

/-- Deposit of a failed creation that has come back to the factory. -/
def Receipt.back : Receipt → Nat
  | .callback _ d _ false => d
  | _ => 0

/-- Deposit of an unfinished creation of caller `a`. -/
def Receipt.owed (a : AccountId) : Receipt → Nat
  | .create _ _ d c => if c = a then d else 0
  | .callback _ d c false => if c = a then d else 0
  | _ => 0

/-- 1 if the key is present. -/
def has {V : Type} (m : UMap AccountId V) (id : AccountId) : Nat := (m.contains id).toNat

/-- What holds of every receipt. -/
def ReceiptOk (cfg : Cfg) (w : World) : Receipt → Prop
  | .create b id d _ => b.receiver = id ∧ b.deposit = d ∧ b.code = .stakingPool ∧
      directSub cfg.self id = true ∧ cfg.validAccountId id = true ∧ cfg.validAccountId b.owner = true ∧
      (b.fee.numerator < two32 ∧ b.fee.denominator < two32) ∧
      (b.fee.denominator ≠ 0 ∧ b.fee.numerator ≤ b.fee.denominator) ∧
      minAttachedBalance ≤ d ∧ d < two128
  | .callback id _ _ true => w.accounts.contains id = true
  | .callback _ _ _ false => True
  | .whitelist contract id => contract = w.c.whitelistId ∧ w.accounts.contains id = true

/-- What holds of every created account. -/
structure AccountOk (cfg : Cfg) (id : AccountId) (acc : Created) : Prop where
  code : acc.code = .stakingPool
  sub : directSub cfg.self id = true
  fresh : cfg.existing id = false
  started : StakingPool.Started (poolCfg cfg id) acc.pool
  deposit : acc.pool.liquid = acc.deposit ∧ minAttachedBalance ≤ acc.deposit

/-- Invariant; `base` is what the factory owns itself. -/
structure FInv (cfg : Cfg) (base : Nat) (w : World) : Prop where
  count : ∀ id, rsum (Receipt.open id) w.receipts + has w.accounts id = has w.c.poolIds id
  receipts : ∀ r ∈ w.receipts, ReceiptOk cfg w r
  accounts : ∀ id acc, w.accounts.get id = some acc → AccountOk cfg id acc
  money : w.bal = base + rsum Receipt.back w.receipts
  ledger : ∀ a, w.attachedBy a = w.refunded a +
    w.accounts.sum (fun _ acc => if acc.caller = a then acc.deposit else 0) +
    rsum (Receipt.owed a) w.receipts

theorem contains_eq {V : Type} (m : UMap AccountId V) (id : AccountId) :
    m.contains id = (m.get id).isSome := rfl

theorem has_insert {V : Type} (m : UMap AccountId V) (k id : AccountId) (v : V) :
    has (m.insert k v) id = if k = id then 1 else has m id := by
  unfold has
  simp only [contains_eq, UMap.get_insert]
  by_cases h : k = id <;> simp [h]

theorem has_remove {V : Type} (m : UMap AccountId V) (k id : AccountId) :
    has (m.remove k) id = if k = id then 0 else has m id := by
  unfold has
  simp only [contains_eq, UMap.get_remove]
  by_cases h : k = id <;> simp [h]

theorem has_le {V : Type} (m : UMap AccountId V) (k : AccountId) : has m k ≤ 1 := by
  unfold has; cases m.contains k <;> simp

theorem has_eq_zero {V : Type} {m : UMap AccountId V} {k : AccountId} :
    has m k = 0 ↔ m.contains k = false := by
  unfold has; cases m.contains k <;> simp

theorem has_eq_one {V : Type} {m : UMap AccountId V} {k : AccountId} :
    has m k = 1 ↔ m.contains k = true := by
  unfold has; cases m.contains k <;> simp

theorem contains_insert {V : Type} {m : UMap AccountId V} {k id : AccountId} {v : V}
    (h : m.contains id = true) : (m.insert k v).contains id = true := by
  simp only [contains_eq, UMap.get_insert] at *
  split
  · rfl
  · exact h

theorem mem_eraseIdx {l : List Receipt} {i : Nat} {r : Receipt} (h : r ∈ l.eraseIdx i) : r ∈ l :=
  List.mem_of_mem_eraseIdx h

theorem receiptOk_congr {cfg : Cfg} {w w' : World} {r : Receipt} (h : ReceiptOk cfg w r)
    (ha : ∀ id, w.accounts.contains id = true → w'.accounts.contains id = true)
    (hw : w'.c.whitelistId = w.c.whitelistId) : ReceiptOk cfg w' r := by
  match r, h with
  | .create b id d c, h => exact h
  | .callback id d c true, h => exact ha _ h
  | .callback id d c false, _ => trivial
  | .whitelist c id, h => exact ⟨h.1.trans hw.symm, ha _ h.2⟩

theorem finv_create {cfg : Cfg} {base : Nat} {w : World} (hi : FInv cfg base w) (who : AccountId)
    (att : Nat) (poolId owner : AccountId) (key : PublicKey) (fee : StakingPool.Fee) :
    FInv cfg base (step cfg w (.create who att poolId owner key fee)) := by
  simp only [step]
  cases hx : createStakingPool (mkEnv cfg w who att []) w.c poolId owner key fee with
  | error m => exact hi
  | ok r =>
    obtain ⟨s, effs⟩ := r
    obtain ⟨hacc, rfl, rfl⟩ := create_ok.mp hx
    have hrec : ∀ f : Receipt → Nat, rsum f (w.receipts ++
        ([createEff cfg who att poolId owner key fee].flatMap Eff.receipt)) = rsum f w.receipts +
        f (.create ⟨subAccount poolId cfg.self, att, .stakingPool, owner, key, fee⟩
          (subAccount poolId cfg.self) att who) := by
      intro f; rw [rsum_append]; simp [createEff, Eff.receipt, rsum]
    refine ⟨?_, ?_, hi.accounts, ?_, ?_⟩
    · intro id
      simp only [applyCall]
      rw [hrec, has_insert]
      have h1 := hi.count id
      have h2 := has_eq_zero.mpr hacc.fresh
      simp only [Receipt.open]
      by_cases he : subAccount poolId cfg.self = id
      · rw [he] at h2; simp [he]; omega
      · simp [he]; omega
    · intro r hr
      simp only [applyCall] at hr
      rcases List.mem_append.mp hr with hr | hr
      · exact receiptOk_congr (hi.receipts r hr) (fun _ h => h) rfl
      · simp only [createEff, Eff.receipt, List.flatMap_cons, List.flatMap_nil, List.append_nil,
          List.mem_singleton] at hr
        subst hr
        refine ⟨rfl, rfl, rfl, ?_, hacc.validId, hacc.validOwner, hacc.feeRange, hacc.fee, hacc.enough,
          hacc.attRange⟩
        rw [directSub_subAccount]; simpa using hacc.noDot
    · simp only [applyCall]
      rw [hrec]
      have := hi.money
      simp only [Receipt.back, createEff, Eff.out, List.map_cons, List.map_nil, List.sum_cons, List.sum_nil]
      omega
    · intro a
      simp only [applyCall]
      rw [hrec]
      have := hi.ledger a
      simp only [Receipt.owed, createEff, Eff.paidTo, List.map_cons, List.map_nil, List.sum_cons,
        List.sum_nil]
      omega

theorem deploy_some {cfg : Cfg} {w : World} {b : Batch} {caller : AccountId} {acc : Created}
    (h : deploy cfg w b caller = some acc) :
    directSub cfg.self b.receiver = true ∧ cfg.existing b.receiver = false ∧
    w.accounts.contains b.receiver = false ∧ acc.code = b.code ∧ acc.deposit = b.deposit ∧
    acc.caller = caller ∧ acc.pool.liquid = b.deposit ∧
    ∃ p effs, StakingPool.new (StakingPool.initEnv (poolCfg cfg b.receiver) cfg.self b.deposit w.epoch) false
        b.owner b.key b.fee = .ok (p, effs) ∧ acc.pool = StakingPool.initWorld p effs b.deposit w.epoch := by
  unfold deploy at h
  split at h
  · rename_i hc
    split at h
    · rename_i p effs hn
      cases h
      exact ⟨hc.1, hc.2.1, hc.2.2, rfl, rfl, rfl, rfl, p, effs, hn, rfl⟩
    · cases h
  · cases h

/-- The world without the receipt that is being executed. -/
theorem finv_receipt {cfg : Cfg} {base : Nat} {w : World} (hi : FInv cfg base w) {i : Nat} {r : Receipt}
    (hr : w.receipts[i]? = some r) (ok : Bool) :
    FInv cfg base (execReceipt cfg { w with receipts := w.receipts.eraseIdx i } ok r) := by
  have hmem : r ∈ w.receipts := List.mem_of_getElem? hr
  have hrok := hi.receipts r hmem
  have hers := fun f => rsum_eraseIdx f hr
  have hold : ∀ q ∈ w.receipts.eraseIdx i, ReceiptOk cfg w q := fun q hq => hi.receipts q (mem_eraseIdx hq)
  match r, hr, hmem, hrok, hers with
  | .create b id d caller, hr, hmem, hrok, hers =>
    obtain ⟨rfl, rfl, hcode, hsub, hvid, hvo, hfr, hfv, hmin, hmax⟩ := hrok
    simp only [execReceipt]
    cases hd : (if ok then deploy cfg { w with receipts := w.receipts.eraseIdx i } b caller else none) with
    | some acc =>
      simp only
      have hd' : deploy cfg { w with receipts := w.receipts.eraseIdx i } b caller = some acc := by
        cases ok with
        | true => exact hd
        | false => cases hd
      obtain ⟨g1, g2, g3, g4, g5, g6, g7, p, effs, g8, g9⟩ := deploy_some hd'
      refine ⟨?_, ?_, ?_, ?_, ?_⟩
      · intro j
        have h1 := hi.count j
        have h2 := hers (Receipt.open j)
        simp only [Receipt.open] at h2
        rw [rsum_append, rsum_single, has_insert]
        simp only [Receipt.open]
        have h3 : has w.accounts b.receiver = 0 := has_eq_zero.mpr g3
        by_cases he : b.receiver = j
        · subst he
          simp at h2 ⊢; omega
        · simp [he] at h2 ⊢; omega
      · intro q hq
        rcases List.mem_append.mp hq with hq | hq
        · exact receiptOk_congr (hold q hq) (fun _ h => contains_insert h) rfl
        · simp only [List.mem_singleton] at hq
          subst hq
          show (w.accounts.insert b.receiver acc).contains b.receiver = true
          simp [contains_eq]
      · intro j acc' hj
        simp only [UMap.get_insert] at hj
        split at hj
        · rename_i he; cases hj; subst he
          refine ⟨by rw [g4, hcode], g1, g2, ?_, ?_⟩
          · refine ⟨cfg.self, b.owner, b.key, b.fee, b.deposit, w.epoch, p, effs, ?_, hmax, g8, g9⟩
            unfold minAttachedBalance at hmin; unfold StakingPool.guaranteeFund; omega
          · rw [g7, g5]; exact ⟨rfl, hmin⟩
        · exact hi.accounts j acc' hj
      · have h1 := hi.money
        have h2 := hers Receipt.back
        simp only [Receipt.back] at h2
        simp only
        rw [rsum_append, rsum_single]
        simp only [Receipt.back]
        omega
      · intro a
        have h1 := hi.ledger a
        have h2 := hers (Receipt.owed a)
        simp only [Receipt.owed] at h2
        simp only
        rw [rsum_append, rsum_single]
        simp only [Receipt.owed]
        have h3 := UMap.sum_insert w.accounts b.receiver acc
          (fun _ acc => if acc.caller = a then acc.deposit else 0)
        have h4 : w.accounts.part (fun _ acc => if acc.caller = a then acc.deposit else 0) b.receiver = 0 := by
          have : w.accounts.get b.receiver = none := by
            simpa [contains_eq] using g3
          unfold UMap.part; rw [this]
        rw [h4, g5, g6] at h3
        omega
    | none =>
      simp only
      refine ⟨?_, ?_, hi.accounts, ?_, ?_⟩
      · intro j
        have h1 := hi.count j
        have h2 := hers (Receipt.open j)
        simp only [Receipt.open] at h2
        rw [rsum_append, rsum_single]
        simp only [Receipt.open]
        omega
      · intro q hq
        rcases List.mem_append.mp hq with hq | hq
        · exact receiptOk_congr (hold q hq) (fun _ h => h) rfl
        · simp only [List.mem_singleton] at hq
          subst hq
          trivial
      · have h1 := hi.money
        have h2 := hers Receipt.back
        simp only [Receipt.back] at h2
        simp only
        rw [rsum_append, rsum_single]
        simp only [Receipt.back]
        omega
      · intro a
        have h1 := hi.ledger a
        have h2 := hers (Receipt.owed a)
        simp only [Receipt.owed] at h2
        simp only
        rw [rsum_append, rsum_single]
        simp only [Receipt.owed]
        omega
  | .callback id d caller true, hr, hmem, hrok, hers =>
    have hx : onStakingPoolCreate (mkEnv cfg { w with receipts := w.receipts.eraseIdx i } cfg.self 0 [true])
        w.c id d caller = .ok (w.c, [.whitelist w.c.whitelistId id], none) :=
      callback_ok.mpr ⟨rfl, rfl, .inl ⟨rfl, rfl, rfl, rfl⟩⟩
    simp only [execReceipt, hx]
    refine ⟨?_, ?_, hi.accounts, ?_, ?_⟩
    · intro j
      have h1 := hi.count j
      have h2 := hers (Receipt.open j)
      simp only [Receipt.open] at h2
      simp only [applyCall, Eff.receipt, List.flatMap_cons, List.flatMap_nil, List.append_nil]
      rw [rsum_append, rsum_single]
      simp only [Receipt.open]
      omega
    · intro q hq
      simp only [applyCall, Eff.receipt, List.flatMap_cons, List.flatMap_nil, List.append_nil] at hq
      rcases List.mem_append.mp hq with hq | hq
      · exact receiptOk_congr (hold q hq) (fun _ h => h) rfl
      · simp only [List.mem_singleton] at hq
        subst hq
        exact ⟨rfl, hrok⟩
    · have h1 := hi.money
      have h2 := hers Receipt.back
      simp only [Receipt.back] at h2
      simp only [applyCall, Eff.receipt, Eff.out, List.flatMap_cons, List.flatMap_nil, List.append_nil,
        List.map_cons, List.map_nil, List.sum_cons, List.sum_nil]
      rw [rsum_append, rsum_single]
      simp only [Receipt.back]
      omega
    · intro a
      have h1 := hi.ledger a
      have h2 := hers (Receipt.owed a)
      simp only [Receipt.owed] at h2
      simp only [applyCall, Eff.receipt, Eff.paidTo, List.flatMap_cons, List.flatMap_nil, List.append_nil,
        List.map_cons, List.map_nil, List.sum_cons, List.sum_nil]
      rw [rsum_append, rsum_single]
      simp only [Receipt.owed]
      omega
  | .callback id d caller false, hr, hmem, hrok, hers =>
    have hle : d ≤ w.bal := by
      have h1 := hi.money
      have h2 := rsum_le_of_mem Receipt.back hmem
      simp only [Receipt.back] at h2
      omega
    have hx : onStakingPoolCreate (mkEnv cfg { w with receipts := w.receipts.eraseIdx i } cfg.self 0 [false])
        w.c id d caller = .ok ({ w.c with poolIds := w.c.poolIds.remove id }, [.transfer caller d],
          some false) :=
      callback_ok.mpr ⟨rfl, rfl, .inr ⟨rfl, hle, rfl, rfl, rfl⟩⟩
    simp only [execReceipt, hx]
    refine ⟨?_, ?_, hi.accounts, ?_, ?_⟩
    · intro j
      have h1 := hi.count j
      have h2 := hers (Receipt.open j)
      have h3 := has_le w.c.poolIds j
      simp only [Receipt.open] at h2
      simp only [applyCall, Eff.receipt, List.flatMap_cons, List.flatMap_nil, List.append_nil]
      rw [has_remove]
      by_cases he : id = j
      · simp [he] at h2 ⊢; omega
      · simp [he] at h2 ⊢; omega
    · intro q hq
      simp only [applyCall, Eff.receipt, List.flatMap_cons, List.flatMap_nil, List.append_nil] at hq
      exact receiptOk_congr (hold q hq) (fun _ h => h) rfl
    · have h1 := hi.money
      have h2 := hers Receipt.back
      simp only [Receipt.back] at h2
      simp only [applyCall, Eff.receipt, Eff.out, List.flatMap_cons, List.flatMap_nil, List.append_nil,
        List.map_cons, List.map_nil, List.sum_cons, List.sum_nil]
      omega
    · intro a
      have h1 := hi.ledger a
      have h2 := hers (Receipt.owed a)
      simp only [Receipt.owed] at h2
      simp only [applyCall, Eff.receipt, Eff.paidTo, List.flatMap_cons, List.flatMap_nil, List.append_nil,
        List.map_cons, List.map_nil, List.sum_cons, List.sum_nil]
      omega
  | .whitelist contract id, hr, hmem, hrok, hers =>
    have base : FInv cfg base { w with receipts := w.receipts.eraseIdx i } := by
      refine ⟨?_, fun q hq => receiptOk_congr (hold q hq) (fun _ h => h) rfl, hi.accounts, ?_, ?_⟩
      · intro j
        have h1 := hi.count j
        have h2 := hers (Receipt.open j)
        simp only [Receipt.open] at h2
        simp only; omega
      · have h1 := hi.money
        have h2 := hers Receipt.back
        simp only [Receipt.back] at h2
        simp only; omega
      · intro a
        have h1 := hi.ledger a
        have h2 := hers (Receipt.owed a)
        simp only [Receipt.owed] at h2
        simp only; omega
    simp only [execReceipt]
    split
    · exact ⟨base.count, fun q hq => receiptOk_congr (base.receipts q hq) (fun _ h => h) rfl,
        base.accounts, base.money, base.ledger⟩
    · exact base

/-- What an event adds to the factory's own tokens. -/
def Ev.gain : Ev → Nat
  | .income n => n
  | _ => 0

theorem finv_step {cfg : Cfg} {base : Nat} {w : World} (hi : FInv cfg base w) (ev : Ev) :
    FInv cfg (base + ev.gain) (step cfg w ev) := by
  cases ev with
  | create who att poolId owner key fee => exact finv_create hi who att poolId owner key fee
  | callCallback who att id d caller => rw [callCallback_step]; exact hi
  | deliver i ok =>
    simp only [step]
    cases hr : w.receipts[i]? with
    | some r => exact finv_receipt hi hr ok
    | none => exact hi
  | whitelistCall ev =>
    simp only [step]
    split
    · exact hi
    · exact ⟨hi.count, fun q hq => receiptOk_congr (hi.receipts q hq) (fun _ h => h) rfl, hi.accounts,
        hi.money, hi.ledger⟩
  | income n =>
    refine ⟨hi.count, fun q hq => receiptOk_congr (hi.receipts q hq) (fun _ h => h) rfl, hi.accounts,
      ?_, hi.ledger⟩
    have := hi.money
    show w.bal + n = base + n + rsum Receipt.back w.receipts
    omega
  | epochs n =>
    exact ⟨hi.count, fun q hq => receiptOk_congr (hi.receipts q hq) (fun _ h => h) rfl, hi.accounts,
      hi.money, hi.ledger⟩

theorem income_cons (ev : Ev) (l : List Ev) : income (ev :: l) = ev.gain + income l := by
  cases ev <;> simp [income, Ev.gain]

theorem finv_run {cfg : Cfg} {base : Nat} {w : World} (hi : FInv cfg base w) (evs : List Ev) :
    FInv cfg (base + income evs) (run cfg w evs) := by
  unfold run
  induction evs generalizing w base with
  | nil => exact hi
  | cons ev t ih =>
    rw [income_cons, ← Nat.add_assoc]
    exact ih (finv_step hi ev)

theorem started_finv {cfg : Cfg} {w0 : World} (h : Started cfg w0) : FInv cfg w0.bal w0 := by
  obtain ⟨who, wid, s, bal, epoch, fnd, wl0, wevs, hn, _, rfl⟩ := h
  simp only [new, bind_ok, pure_ok] at hn
  obtain ⟨_, _, _, _, _, _, rfl⟩ := hn
  refine ⟨fun id => rfl, fun r hr => ?_, fun id acc h => ?_, rfl, fun a => rfl⟩
  · cases hr
  · simp at h

end Verif.PoolFactory
