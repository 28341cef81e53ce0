import Verif.WNear.Model

/-! # Wrapped NEAR: inversion lemmas and invariant -/

namespace Verif.WNear

open Verif

/-! ## Inversion -/

theorem unwrap_ok {s : State} {a : AccountId} {b : Nat} :
    unwrapBalance s a = .ok b ↔ s.accounts.get a = some b := by
  unfold unwrapBalance
  cases s.accounts.get a with
  | none => simp
  | some v => simp only [pure_ok, Option.some.injEq]

theorem contains_eq {V : Type} (m : UMap AccountId V) (a : AccountId) :
    m.contains a = (m.get a).isSome := rfl

/-- The state after minting. -/
def mint (s : State) (a : AccountId) (b amount : Nat) : State :=
  { s with accounts := s.accounts.insert a (b + amount), totalSupply := s.totalSupply + amount }

/-- The state after burning. -/
def burn (s : State) (a : AccountId) (b amount : Nat) : State :=
  { s with accounts := s.accounts.insert a (b - amount), totalSupply := s.totalSupply - amount }

theorem deposit_ok {s s' : State} {a : AccountId} {x : Nat} :
    internalDeposit s a x = .ok s' ↔ ∃ b, s.accounts.get a = some b ∧ b + x < two128 ∧
      s.totalSupply + x < two128 ∧ s' = mint s a b x := by
  simp only [internalDeposit, bind_ok, unwrap_ok, addU128_ok, pure_ok]
  constructor
  · rintro ⟨b, h1, _, ⟨h2, rfl⟩, _, ⟨h3, rfl⟩, rfl⟩; exact ⟨b, h1, h2, h3, rfl⟩
  · rintro ⟨b, h1, h2, h3, rfl⟩; exact ⟨b, h1, _, ⟨h2, rfl⟩, _, ⟨h3, rfl⟩, rfl⟩

theorem withdraw_ok {s s' : State} {a : AccountId} {x : Nat} :
    internalWithdraw s a x = .ok s' ↔ ∃ b, s.accounts.get a = some b ∧ x ≤ b ∧ x ≤ s.totalSupply ∧
      s' = burn s a b x := by
  simp only [internalWithdraw, bind_ok, unwrap_ok, subU_ok, pure_ok]
  constructor
  · rintro ⟨b, h1, _, ⟨h2, rfl⟩, _, ⟨h3, rfl⟩, rfl⟩; exact ⟨b, h1, h2, h3, rfl⟩
  · rintro ⟨b, h1, h2, h3, rfl⟩; exact ⟨b, h1, _, ⟨h2, rfl⟩, _, ⟨h3, rfl⟩, rfl⟩

theorem transfer_ok {s s' : State} {a r : AccountId} {x : Nat} :
    internalTransfer s a r x = .ok s' ↔ a ≠ r ∧ 0 < x ∧ ∃ b c, s.accounts.get a = some b ∧
      s.accounts.get r = some c ∧ x ≤ b ∧ x ≤ s.totalSupply ∧ c + x < two128 ∧
      s.totalSupply - x + x < two128 ∧ s' = mint (burn s a b x) r c x := by
  simp only [internalTransfer, bind_ok, require_ok, withdraw_ok, deposit_ok]
  constructor
  · rintro ⟨_, h1, _, h2, _, ⟨b, h3, h4, h5, rfl⟩, c, h6, h7, h8, rfl⟩
    simp only [burn, UMap.get_insert, if_neg h1] at h6
    exact ⟨h1, h2, b, c, h3, h6, h4, h5, h7, h8, rfl⟩
  · rintro ⟨h1, h2, b, c, h3, h6, h4, h5, h7, h8, rfl⟩
    refine ⟨(), h1, (), h2, _, ⟨b, h3, h4, h5, rfl⟩, c, ?_, h7, h8, rfl⟩
    simp only [burn, UMap.get_insert, if_neg h1]; exact h6

theorem register_ok {s s' : State} {a : AccountId} :
    internalRegister s a = .ok s' ↔ s.accounts.get a = none ∧
      s' = { s with accounts := s.accounts.insert a 0 } := by
  simp only [internalRegister, bind_ok, require_ok, pure_ok]
  simp only [contains_eq]
  constructor
  · rintro ⟨_, h1, rfl⟩; exact ⟨by simpa using h1, rfl⟩
  · rintro ⟨h1, rfl⟩; exact ⟨(), by simp [h1], rfl⟩

theorem nearDeposit_ok {e : Env} {s s' : State} :
    nearDeposit e s = .ok s' ↔ e.attachedDeposit < two128 ∧ 0 < e.attachedDeposit ∧
      ((∃ b, s.accounts.get e.predecessor = some b ∧ b + e.attachedDeposit < two128 ∧
        s.totalSupply + e.attachedDeposit < two128 ∧ s' = mint s e.predecessor b e.attachedDeposit) ∨
       (s.accounts.get e.predecessor = none ∧ minBalance s ≤ e.attachedDeposit ∧
        s.totalSupply + (e.attachedDeposit - minBalance s) < two128 ∧
        s' = mint { s with accounts := s.accounts.insert e.predecessor 0 } e.predecessor 0
          (e.attachedDeposit - minBalance s))) := by
  simp only [nearDeposit, bind_ok, require_ok, Prod.exists, deposit_ok]
  cases hg : s.accounts.get e.predecessor with
  | some b =>
    have hc : s.accounts.contains e.predecessor = true := by simp [contains_eq, hg]
    simp only [depositRegister, hc, if_true, pure_ok, Prod.mk.injEq]
    constructor
    · rintro ⟨_, h1, _, h2, _, _, ⟨rfl, rfl⟩, b', h3, h4, h5, rfl⟩
      rw [hg] at h3; cases h3
      exact ⟨h1, h2, .inl ⟨b, rfl, h4, h5, rfl⟩⟩
    · rintro ⟨h1, h2, ⟨b', h3, h4, h5, rfl⟩ | ⟨h3, _⟩⟩
      · cases h3; exact ⟨(), h1, (), h2, _, _, ⟨rfl, rfl⟩, b, hg, h4, h5, rfl⟩
      · cases h3
  | none =>
    have hc : s.accounts.contains e.predecessor = false := by simp [contains_eq, hg]
    simp only [depositRegister, hc, Bool.false_eq_true, if_false, bind_ok, require_ok, register_ok, subU_ok,
      pure_ok, Prod.mk.injEq]
    constructor
    · rintro ⟨_, h1, _, h2, _, _, ⟨_, h3, _, ⟨_, rfl⟩, _, ⟨h4, rfl⟩, rfl, rfl⟩, b', h5, h6, h7, rfl⟩
      simp only [UMap.get_insert_self, Option.some.injEq] at h5
      subst h5
      exact ⟨h1, h2, .inr ⟨trivial, h3, h7, rfl⟩⟩
    · rintro ⟨h1, h2, ⟨b', h3, _⟩ | ⟨_, h3, h4, rfl⟩⟩
      · cases h3
      · refine ⟨(), h1, (), h2, _, _, ⟨(), h3, _, ⟨hg, rfl⟩, _, ⟨h3, rfl⟩, rfl, rfl⟩, 0, by simp, ?_, h4, rfl⟩
        have : minBalance { s with accounts := s.accounts.insert e.predecessor 0 } = minBalance s := rfl
        rw [this]; omega

theorem pay_ok {e : Env} {a : AccountId} {x : Nat} {effs : List Eff} :
    pay e a x = .ok effs ↔ x ≤ e.accountBalance ∧ effs = [.transfer a x] := by
  simp only [pay, bind_ok, require_ok, pure_ok, exists_const]
  constructor
  · rintro ⟨h1, rfl⟩; exact ⟨h1, rfl⟩
  · rintro ⟨h1, rfl⟩; exact ⟨h1, rfl⟩

theorem payIfPos_ok {e : Env} {a : AccountId} {x : Nat} {effs : List Eff} :
    payIfPos e a x = .ok effs ↔ x ≤ e.accountBalance ∧ effs = if x > 0 then [.transfer a x] else [] := by
  unfold payIfPos
  split
  · exact pay_ok
  · rename_i h
    simp only [pure_ok]
    constructor
    · rintro rfl; exact ⟨by omega, rfl⟩
    · rintro ⟨_, rfl⟩; rfl

theorem nearWithdraw_ok {e : Env} {s s' : State} {x : Nat} {effs : List Eff} :
    nearWithdraw e s x = .ok (s', effs) ↔ e.attachedDeposit = 1 ∧
      ∃ b, s.accounts.get e.predecessor = some b ∧ x ≤ b ∧ x ≤ s.totalSupply ∧ x + 1 < two128 ∧
        x + 1 ≤ e.accountBalance ∧ s' = burn s e.predecessor b x ∧
        effs = [.transfer e.predecessor (x + 1)] := by
  simp only [nearWithdraw, decodeU128, assertOneYocto, bind_ok, require_ok, withdraw_ok, addU128_ok, pay_ok,
    pure_ok, Prod.mk.injEq]
  constructor
  · rintro ⟨_, _, _, h1, _, ⟨b, h2, h3, h4, rfl⟩, _, ⟨h5, rfl⟩, _, ⟨h6, rfl⟩, rfl, rfl⟩
    exact ⟨h1, b, h2, h3, h4, h5, h6, rfl, rfl⟩
  · rintro ⟨h1, b, h2, h3, h4, h5, h6, rfl, rfl⟩
    exact ⟨(), by omega, (), h1, _, ⟨b, h2, h3, h4, rfl⟩, _, ⟨h5, rfl⟩, _, ⟨h6, rfl⟩, rfl, rfl⟩

theorem ftTransfer_ok {e : Env} {s s' : State} {r : AccountId} {x : Nat} :
    ftTransfer e s r x = .ok s' ↔ e.validAccountId r = true ∧ x < two128 ∧ e.attachedDeposit = 1 ∧
      internalTransfer s e.predecessor r x = .ok s' := by
  simp only [ftTransfer, decodeId, decodeU128, assertOneYocto, bind_ok, require_ok, exists_const]

theorem ftTransferCall_ok {e : Env} {s s' : State} {r : AccountId} {x : Nat} {effs : List Eff} :
    ftTransferCall e s r x = .ok (s', effs) ↔ e.validAccountId r = true ∧ x < two128 ∧
      e.attachedDeposit = 1 ∧ internalTransfer s e.predecessor r x = .ok s' ∧ e.hostOk = true ∧
      effs = [.transferCall e.predecessor r x] := by
  simp only [ftTransferCall, decodeId, decodeU128, assertOneYocto, bind_ok, require_ok, exists_const, pure_ok,
    Prod.mk.injEq]
  constructor
  · rintro ⟨h1, h2, h3, _, h4, h5, rfl, rfl⟩; exact ⟨h1, h2, h3, h4, h5, rfl⟩
  · rintro ⟨h1, h2, h3, h4, h5, rfl⟩; exact ⟨h1, h2, h3, _, h4, h5, rfl, rfl⟩

theorem storageDeposit_ok {e : Env} {s s' : State} {a : Option AccountId} {effs : List Eff} :
    storageDeposit e s a = .ok (s', effs) ↔ (∀ x, a = some x → e.validAccountId x = true) ∧
      e.attachedDeposit < two128 ∧
      (((∃ b, s.accounts.get (a.getD e.predecessor) = some b) ∧ e.attachedDeposit ≤ e.accountBalance ∧ s' = s ∧
        effs = if e.attachedDeposit > 0 then [.transfer e.predecessor e.attachedDeposit] else []) ∨
       (s.accounts.get (a.getD e.predecessor) = none ∧ minBalance s ≤ e.attachedDeposit ∧
        e.attachedDeposit - minBalance s ≤ e.accountBalance ∧
        s' = { s with accounts := s.accounts.insert (a.getD e.predecessor) 0 } ∧
        effs = if e.attachedDeposit - minBalance s > 0 then
          [.transfer e.predecessor (e.attachedDeposit - minBalance s)] else [])) := by
  have hdec : ∀ u, decodeOptId e a = .ok u ↔ ∀ x, a = some x → e.validAccountId x = true := by
    intro u
    cases a with
    | none => simp [decodeOptId, pure_ok]
    | some a => simp [decodeOptId, decodeId]
  unfold storageDeposit
  simp only [bind_ok, hdec, require_ok, exists_const]
  cases hg : s.accounts.get (a.getD e.predecessor) with
  | some b =>
    have hc : s.accounts.contains (a.getD e.predecessor) = true := by simp [contains_eq, hg]
    simp only [hc, if_true, bind_ok, payIfPos_ok, pure_ok, Prod.mk.injEq]
    constructor
    · rintro ⟨h1, h2, _, ⟨h3, rfl⟩, rfl, rfl⟩; exact ⟨h1, h2, .inl ⟨⟨b, rfl⟩, h3, rfl, rfl⟩⟩
    · rintro ⟨h1, h2, ⟨_, h3, rfl, rfl⟩ | ⟨h3, _⟩⟩
      · exact ⟨h1, h2, _, ⟨h3, rfl⟩, rfl, rfl⟩
      · cases h3
  | none =>
    have hc : s.accounts.contains (a.getD e.predecessor) = false := by simp [contains_eq, hg]
    simp only [hc, Bool.false_eq_true, if_false, bind_ok, require_ok, register_ok, subU_ok, payIfPos_ok, pure_ok,
      Prod.mk.injEq]
    constructor
    · rintro ⟨h1, h2, _, h3, _, ⟨_, rfl⟩, _, ⟨h4, rfl⟩, _, ⟨h5, rfl⟩, rfl, rfl⟩
      exact ⟨h1, h2, .inr ⟨trivial, h3, h5, rfl, rfl⟩⟩
    · rintro ⟨h1, h2, ⟨⟨b, h3⟩, _⟩ | ⟨_, h3, h5, rfl, rfl⟩⟩
      · cases h3
      · exact ⟨h1, h2, (), h3, _, ⟨hg, rfl⟩, _, ⟨h3, rfl⟩, _, ⟨h5, rfl⟩, rfl, rfl⟩

theorem storageUnregister_ok {e : Env} {s s' : State} {f : Option Bool} {effs : List Eff} {v : Bool} :
    storageUnregister e s f = .ok (s', effs, v) ↔ e.attachedDeposit = 1 ∧
      ((∃ b, s.accounts.get e.predecessor = some b ∧ (b = 0 ∨ f.getD false = true) ∧ b ≤ s.totalSupply ∧
        minBalance s + 1 < two128 ∧ minBalance s + 1 ≤ e.accountBalance ∧
        s' = { s with accounts := s.accounts.remove e.predecessor, totalSupply := s.totalSupply - b } ∧
        effs = [.transfer e.predecessor (minBalance s + 1)] ∧ v = true) ∨
       (s.accounts.get e.predecessor = none ∧ s' = s ∧ effs = [] ∧ v = false)) := by
  unfold storageUnregister assertOneYocto
  simp only [bind_ok, require_ok, exists_const]
  cases hg : s.accounts.get e.predecessor with
  | some b =>
    simp only [bind_ok, require_ok, exists_const, subU_ok, addU128_ok, pay_ok, pure_ok, Prod.mk.injEq]
    constructor
    · rintro ⟨h1, h2, _, ⟨h3, rfl⟩, _, ⟨h4, rfl⟩, _, ⟨h5, rfl⟩, rfl, rfl, rfl⟩
      exact ⟨h1, .inl ⟨b, rfl, h2, h3, h4, h5, rfl, rfl, rfl⟩⟩
    · rintro ⟨h1, ⟨b', h2, h3, h4, h5, h6, rfl, rfl, rfl⟩ | ⟨h2, _⟩⟩
      · cases h2
        exact ⟨h1, h3, _, ⟨h4, rfl⟩, _, ⟨h5, rfl⟩, _, ⟨h6, rfl⟩, rfl, rfl, rfl⟩
      · cases h2
  | none =>
    simp only [pure_ok, Prod.mk.injEq]
    constructor
    · rintro ⟨h1, rfl, rfl, rfl⟩; exact ⟨h1, .inr ⟨trivial, rfl, rfl, rfl⟩⟩
    · rintro ⟨h1, ⟨b', h2, _⟩ | ⟨_, rfl, rfl, rfl⟩⟩
      · cases h2
      · exact ⟨h1, rfl, rfl, rfl⟩

/-- Nobody but the contract can run the callback. -/
theorem resolve_call {cfg : Cfg} {w : World} {who : AccountId} {att : Nat} {host : Bool} {s : State}
    {a b : AccountId} {x : Nat} {r : State × Nat} (h : who ≠ cfg.self) :
    ftResolveTransfer (mkEnv cfg w who att host []) s a b x ≠ .ok r := by
  intro hx
  simp only [ftResolveTransfer, bind_ok, require_ok] at hx
  obtain ⟨_, _, _, h1, _⟩ := hx
  exact h h1

/-! ## Sums -/

/-- Sum of all balances. -/
def total (s : State) : Nat := s.accounts.sum (fun _ b => b)

/-- Number of registered accounts. -/
def registered (s : State) : Nat := s.accounts.sum (fun _ _ => 1)

theorem part_some {m : UMap AccountId Nat} {a : AccountId} {b : Nat} (h : m.get a = some b)
    (f : AccountId → Nat → Nat) : m.part f a = f a b := by unfold UMap.part; rw [h]

theorem part_none {m : UMap AccountId Nat} {a : AccountId} (h : m.get a = none)
    (f : AccountId → Nat → Nat) : m.part f a = 0 := by unfold UMap.part; rw [h]

theorem le_total {s : State} {a : AccountId} {b : Nat} (h : s.accounts.get a = some b) : b ≤ total s := by
  have := UMap.part_le_sum s.accounts (fun _ b => b) a
  rw [part_some h] at this
  exact this

theorem total_mint {s : State} {a : AccountId} {b x : Nat} (h : s.accounts.get a = some b) :
    total (mint s a b x) = total s + x := by
  have := UMap.sum_insert s.accounts a (b + x) (fun _ b => b)
  rw [part_some h] at this
  unfold total mint
  simp only
  omega

theorem total_burn {s : State} {a : AccountId} {b x : Nat} (h : s.accounts.get a = some b) (hx : x ≤ b) :
    total (burn s a b x) + x = total s := by
  have := UMap.sum_insert s.accounts a (b - x) (fun _ b => b)
  rw [part_some h] at this
  unfold total burn
  simp only
  omega

theorem reg_insert {s : State} {a : AccountId} {b v : Nat} (h : s.accounts.get a = some b) :
    (s.accounts.insert a v).sum (fun _ _ => 1) = registered s := by
  have := UMap.sum_insert s.accounts a v (fun _ _ => 1)
  rw [part_some h] at this
  unfold registered
  omega

theorem reg_mint {s : State} {a : AccountId} {b x : Nat} (h : s.accounts.get a = some b) :
    registered (mint s a b x) = registered s := reg_insert h

theorem reg_burn {s : State} {a : AccountId} {b x : Nat} (h : s.accounts.get a = some b) :
    registered (burn s a b x) = registered s := reg_insert h

theorem total_reg {s : State} {a : AccountId} (h : s.accounts.get a = none) :
    total { s with accounts := s.accounts.insert a 0 } = total s := by
  have := UMap.sum_insert s.accounts a 0 (fun _ b => b)
  rw [part_none h] at this
  unfold total; simp only; omega

theorem reg_reg {s : State} {a : AccountId} (h : s.accounts.get a = none) :
    registered { s with accounts := s.accounts.insert a 0 } = registered s + 1 := by
  have := UMap.sum_insert s.accounts a 0 (fun _ _ => 1)
  rw [part_none h] at this
  unfold registered; simp only; omega

/-! ## The invariant -/

/-- What holds of a receipt. -/
def ReceiptOk : Receipt → Prop
  | .transfer _ _ => True
  | .onTransfer s r x => s ≠ r ∧ 0 < x ∧ x < two128
  | .resolve s r x _ => s ≠ r ∧ 0 < x ∧ x < two128

/-- Invariant of the state. -/
structure SInv (usage : Nat) (s : State) : Prop where
  supply : s.totalSupply = total s
  range : s.totalSupply < two128
  usage : s.accountStorageUsage = usage

/-- Invariant of the world; `base` is what the contract had at the beginning. -/
structure WInv (usage base : Nat) (w : World) : Prop where
  state : SInv usage w.c
  money : base + total w.c + storageByteCost * usage * registered w.c ≤ w.bal
  receipts : ∀ r ∈ w.receipts, ReceiptOk r

theorem sinv_transfer {usage : Nat} {s s' : State} {a r : AccountId} {x : Nat} (hi : SInv usage s)
    (h : internalTransfer s a r x = .ok s') :
    SInv usage s' ∧ total s' = total s ∧ registered s' = registered s := by
  obtain ⟨hne, hx, b, c, h1, h2, h3, h4, h5, h6, rfl⟩ := transfer_ok.mp h
  have h2' : (burn s a b x).accounts.get r = some c := by
    simp only [burn, UMap.get_insert, if_neg hne]; exact h2
  have e1 := total_mint (x := x) h2'
  have e2 := total_burn h1 h3
  have e3 := reg_mint (x := x) h2'
  have e4 := reg_burn (x := x) h1
  have hr := hi.range
  have hs := hi.supply
  refine ⟨⟨?_, ?_, hi.usage⟩, by omega, by omega⟩
  · rw [e1]
    show s.totalSupply - x + x = _
    omega
  · show s.totalSupply - x + x < two128
    omega

/-- The callback never fails, and neither creates tokens nor registers accounts. -/
theorem resolve_total {usage : Nat} {s : State} (hi : SInv usage s) {a r : AccountId} {x u : Nat}
    (hne : a ≠ r) (hu : u ≤ x) :
    ∃ s' used burned, resolve s a r x u = .ok (s', used, burned) ∧ SInv usage s' ∧
      total s' + burned = total s ∧ registered s' = registered s ∧
      let refund := min (balanceOf s r) u
      balanceOf s' r + refund = balanceOf s r ∧
      (∀ o, o ≠ a → o ≠ r → s'.accounts.get o = s.accounts.get o) ∧
      ((∃ b, s.accounts.get a = some b ∧ s'.accounts.get a = some (b + refund) ∧ burned = 0 ∧
          used + refund = x) ∨
       (s.accounts.get a = none ∧ s'.accounts.get a = none ∧ burned = refund ∧ used = x)) := by
  unfold resolve
  by_cases hc : u > 0 ∧ balanceOf s r > 0
  · rw [if_pos hc]
    obtain ⟨rb, hrb⟩ : ∃ rb, s.accounts.get r = some rb := by
      cases hg : s.accounts.get r with
      | none => simp [balanceOf, hg] at hc
      | some rb => exact ⟨rb, rfl⟩
    have hbal : balanceOf s r = rb := by simp [balanceOf, hrb]
    rw [hbal]
    have hle := le_total hrb
    have hsup := hi.supply
    have hran := hi.range
    have hne' : r ≠ a := fun h => hne h.symm
    have hga : (s.accounts.insert r (rb - min rb u)).get a = s.accounts.get a := UMap.get_insert_ne hne'
    have e0 := UMap.sum_insert s.accounts r (rb - min rb u) (fun _ b => b)
    rw [part_some hrb] at e0
    have e0' := reg_insert (v := rb - min rb u) hrb
    have hsub : subU rb (min rb u) = .ok (rb - min rb u) := by rw [subU_ok]; exact ⟨by omega, rfl⟩
    simp only [hsub, ok_bind, hga]
    cases hg : s.accounts.get a with
    | some sb =>
      have hpp := UMap.part_add_part_le_sum s.accounts (fun _ b => b) hne
      rw [part_some hg, part_some hrb] at hpp
      have hadd : addU128 sb (min rb u) = .ok (sb + min rb u) := by
        rw [addU128_ok]; refine ⟨?_, rfl⟩
        unfold total at hsup
        omega
      have hsub2 : subU x (min rb u) = .ok (x - min rb u) := by rw [subU_ok]; exact ⟨by omega, rfl⟩
      simp only [hadd, hsub2, ok_bind]
      refine ⟨_, _, _, rfl, ⟨?_, hran, hi.usage⟩, ?_, ?_, ?_, ?_, .inl ⟨sb, rfl, ?_, rfl, by omega⟩⟩
      · have e1 := UMap.sum_insert (s.accounts.insert r (rb - min rb u)) a (sb + min rb u) (fun _ b => b)
        rw [part_some (hga.trans hg)] at e1
        unfold total at hsup ⊢
        simp only
        omega
      · have e1 := UMap.sum_insert (s.accounts.insert r (rb - min rb u)) a (sb + min rb u) (fun _ b => b)
        rw [part_some (hga.trans hg)] at e1
        unfold total at hsup ⊢
        simp only
        omega
      · have e1 := UMap.sum_insert (s.accounts.insert r (rb - min rb u)) a (sb + min rb u) (fun _ _ => 1)
        rw [part_some (hga.trans hg)] at e1
        unfold registered at e0' ⊢
        simp only
        omega
      · simp only [balanceOf, UMap.get_insert, if_neg hne, if_true, Option.getD_some]
        omega
      · intro o h1 h2
        simp only [UMap.get_insert, if_neg (fun h => h1 h.symm : a ≠ o), if_neg (fun h => h2 h.symm : r ≠ o)]
      · simp
    | none =>
      have hsub2 : subU s.totalSupply (min rb u) = .ok (s.totalSupply - min rb u) := by
        rw [subU_ok]; exact ⟨by omega, rfl⟩
      simp only [hsub2, ok_bind]
      refine ⟨_, _, _, rfl, ⟨?_, ?_, hi.usage⟩, ?_, ?_, ?_, ?_, .inr ⟨trivial, ?_, rfl, rfl⟩⟩
      · unfold total at hsup ⊢
        simp only
        omega
      · simp only; omega
      · unfold total at hsup ⊢
        simp only
        omega
      · unfold registered at e0' ⊢
        simp only
        omega
      · simp only [balanceOf, UMap.get_insert_self, Option.getD_some]
        omega
      · intro o h1 h2
        simp only [UMap.get_insert, if_neg (fun h => h2 h.symm : r ≠ o)]
      · rw [hga, hg]
  · rw [if_neg hc]
    have hz : min (balanceOf s r) u = 0 := by omega
    refine ⟨s, x, 0, rfl, hi, rfl, rfl, ?_⟩
    simp only [hz]
    refine ⟨rfl, fun _ _ _ => trivial, ?_⟩
    cases hg : s.accounts.get a with
    | some b => simp
    | none => simp

theorem unused_le (x : Nat) (r : PResult) : unusedAmount x r ≤ x := by
  match r with
  | .failed => exact Nat.le_refl _
  | .value none => exact Nat.le_refl _
  | .value (some v) => exact Nat.min_le_left _ _

/-- The callback in the world. -/
theorem callback_eq {cfg : Cfg} {w : World} {s : State} {a r : AccountId} {x : Nat} {res : PResult}
    {s' : State} {used burned : Nat} (h : resolve s a r x (unusedAmount x res) = .ok (s', used, burned)) :
    ftResolveTransfer (mkEnv cfg w cfg.self 0 true [res]) s a r x = .ok (s', used) := by
  simp only [ftResolveTransfer, notPayable, bind_ok, require_ok]
  refine ⟨(), rfl, (), rfl, ?_⟩
  simp only [mkEnv, bind_ok, pure_ok]
  exact ⟨_, h, rfl⟩

theorem winv_call {cfg : Cfg} {usage base : Nat} {w : World} (hi : WInv usage base w) {who : AccountId}
    (hw : who ≠ cfg.self) {att : Nat} {host : Bool} {c : Call} {s : State} {effs : List Eff}
    (hx : exec (mkEnv cfg w who att host []) w.c c = .ok (s, effs)) :
    WInv usage base (applyCall w att s effs) := by
  have hs := hi.state
  have hm := hi.money
  have hsup := hs.supply
  have hran := hs.range
  have hmin : minBalance w.c = storageByteCost * usage := by unfold minBalance; rw [hs.usage]
  generalize hk : storageByteCost * usage = k at *
  have keep : ∀ r ∈ w.receipts, ReceiptOk r := hi.receipts
  have fin : ∀ s' effs', SInv usage s' →
      base + total s' + k * registered s' + (effs'.map Eff.out).sum ≤ w.bal + att →
      (∀ f ∈ effs', ReceiptOk f.receipt) → WInv usage base (applyCall w att s' effs') := by
    intro s' effs' h1 h2 h3
    refine ⟨h1, ?_, ?_⟩
    · rw [hk]
      show base + total s' + k * registered s' ≤ w.bal + att - (effs'.map Eff.out).sum
      omega
    · intro r hr
      rcases List.mem_append.mp hr with hr | hr
      · exact keep r hr
      · obtain ⟨f, hf, rfl⟩ := List.mem_map.mp hr
        exact h3 f hf
  have empty : ∀ f ∈ ([] : List Eff), ReceiptOk f.receipt := fun f hf => by cases hf
  cases c with
  | nearDeposit =>
    simp only [exec, bind_ok, pure_ok, Prod.mk.injEq] at hx
    obtain ⟨s', hx, rfl, rfl⟩ := hx
    obtain ⟨h1, h2, ⟨b, h3, h4, h5, rfl⟩ | ⟨h3, h4, h5, rfl⟩⟩ := nearDeposit_ok.mp hx
    · simp only [mkEnv] at *
      have e1 := total_mint (x := att) h3
      have e2 := reg_mint (x := att) h3
      refine fin _ _ ⟨?_, ?_, hs.usage⟩ ?_ empty
      · rw [e1]; show w.c.totalSupply + att = _; omega
      · exact h5
      · rw [e1, e2]; simp only [List.map_nil, List.sum_nil]; omega
    · simp only [mkEnv] at *
      have hg : ({ w.c with accounts := w.c.accounts.insert who 0 } : State).accounts.get who = some 0 := by
        simp
      have e1 := total_mint (x := att - minBalance w.c) hg
      have e2 := reg_mint (x := att - minBalance w.c) hg
      have e3 := total_reg h3
      have e4 := reg_reg h3
      refine fin _ _ ⟨?_, ?_, hs.usage⟩ ?_ empty
      · rw [e1, e3]; show w.c.totalSupply + _ = _; omega
      · exact h5
      · rw [e1, e2, e3, e4, hmin, Nat.mul_add]
        rw [hmin] at h4
        simp only [List.map_nil, List.sum_nil]
        omega
  | nearWithdraw x =>
    obtain ⟨h1, b, h2, h3, h4, h5, h6, rfl, rfl⟩ := nearWithdraw_ok.mp hx
    simp only [mkEnv] at *
    have e1 := total_burn h2 h3
    have e2 := reg_burn (x := x) h2
    refine fin _ _ ⟨?_, ?_, hs.usage⟩ ?_ ?_
    · show w.c.totalSupply - x = _; omega
    · show w.c.totalSupply - x < _; omega
    · rw [e2]
      simp only [List.map_cons, List.map_nil, List.sum_cons, List.sum_nil, Eff.out]
      omega
    · intro f hf; simp only [List.mem_singleton] at hf; subst hf; trivial
  | ftTransfer r x =>
    simp only [exec, bind_ok, pure_ok, Prod.mk.injEq] at hx
    obtain ⟨s', hx, rfl, rfl⟩ := hx
    obtain ⟨_, _, h3, h4⟩ := ftTransfer_ok.mp hx
    obtain ⟨g1, g2, g3⟩ := sinv_transfer hs h4
    refine fin _ _ g1 ?_ empty
    rw [g2, g3]; simp only [List.map_nil, List.sum_nil]; omega
  | ftTransferCall r x =>
    obtain ⟨_, hx1, h3, h4, _, rfl⟩ := ftTransferCall_ok.mp hx
    obtain ⟨g1, g2, g3⟩ := sinv_transfer hs h4
    refine fin _ _ g1 ?_ ?_
    · rw [g2, g3]
      simp only [List.map_cons, List.map_nil, List.sum_cons, List.sum_nil, Eff.out]
      omega
    · intro f hf
      simp only [List.mem_singleton] at hf
      subst hf
      obtain ⟨q1, q2, _⟩ := transfer_ok.mp h4
      exact ⟨q1, q2, hx1⟩
  | storageDeposit a =>
    have hout : ∀ n, (((if n > 0 then [Eff.transfer who n] else []).map Eff.out).sum) = n := by
      intro n; split
      · simp [Eff.out]
      · simp; omega
    have hrec : ∀ n, ∀ f ∈ (if n > 0 then [Eff.transfer who n] else []), ReceiptOk f.receipt := by
      intro n f hf
      split at hf
      · simp only [List.mem_singleton] at hf; subst hf; trivial
      · cases hf
    obtain ⟨_, h1, ⟨_, h2, rfl, rfl⟩ | ⟨h2, h3, h4, rfl, rfl⟩⟩ := storageDeposit_ok.mp hx
    · have he : (mkEnv cfg w who att host []).attachedDeposit = att := rfl
      have hp : (mkEnv cfg w who att host []).predecessor = who := rfl
      rw [he, hp]
      refine fin _ _ hs ?_ (hrec _)
      rw [hout]; omega
    · have he : (mkEnv cfg w who att host []).attachedDeposit = att := rfl
      have hp : (mkEnv cfg w who att host []).predecessor = who := rfl
      rw [he] at h1 h3 h4
      rw [hp] at h2
      rw [he, hp]
      have e3 := total_reg h2
      have e4 := reg_reg h2
      refine fin _ _ ⟨?_, hran, hs.usage⟩ ?_ (hrec _)
      · rw [e3]; exact hsup
      · rw [hout, e3, e4, hmin, Nat.mul_add]
        rw [hmin] at h3
        omega
  | storageWithdraw x =>
    simp only [exec, bind_ok, pure_ok, Prod.mk.injEq, storageWithdraw, assertOneYocto, require_ok] at hx
    obtain ⟨s', ⟨_, _, _, _, _, _, rfl⟩, rfl, rfl⟩ := hx
    refine fin _ _ hs ?_ empty
    simp only [List.map_nil, List.sum_nil]; omega
  | storageUnregister f =>
    simp only [exec, bind_ok, Prod.exists, pure_ok, Prod.mk.injEq] at hx
    obtain ⟨s', effs', v, hx, rfl, rfl⟩ := hx
    obtain ⟨h1, ⟨b, h2, h3, h4, h5, h6, rfl, rfl, _⟩ | ⟨_, rfl, rfl, _⟩⟩ := storageUnregister_ok.mp hx
    · simp only [mkEnv] at *
      have e1 := UMap.sum_remove w.c.accounts who (fun _ b => b)
      rw [part_some h2] at e1
      have e2 := UMap.sum_remove w.c.accounts who (fun _ _ => 1)
      rw [part_some h2] at e2
      refine fin _ _ ⟨?_, ?_, hs.usage⟩ ?_ ?_
      · unfold total at hsup ⊢
        show w.c.totalSupply - b = (w.c.accounts.remove who).sum (fun _ b => b)
        omega
      · show w.c.totalSupply - b < _; omega
      · simp only [List.map_cons, List.map_nil, List.sum_cons, List.sum_nil, Eff.out]
        rw [hmin]
        unfold total registered at *
        simp only
        have : k * ((w.c.accounts.remove who).sum fun _ _ => 1) + k =
            k * (w.c.accounts.sum fun _ _ => 1) := by
          rw [← e2, Nat.mul_add, Nat.mul_one]
        omega
      · intro f hf; simp only [List.mem_singleton] at hf; subst hf; trivial
    · refine fin _ _ hs ?_ empty
      simp only [List.map_nil, List.sum_nil]; omega
  | ftResolveTransfer a b x =>
    simp only [exec, bind_ok, Prod.exists] at hx
    obtain ⟨s', u, hx, _⟩ := hx
    exact absurd hx (resolve_call hw)

theorem winv_step {cfg : Cfg} {usage base : Nat} {w : World} (hi : WInv usage base w) (ev : Ev) :
    WInv usage base (step cfg w ev) := by
  cases ev with
  | call who att host c =>
    simp only [step]
    split
    · exact hi
    · rename_i hw
      split
      · rename_i s effs hx; exact winv_call hi hw hx
      · exact hi
  | income n =>
    refine ⟨hi.state, ?_, hi.receipts⟩
    have := hi.money
    show _ ≤ w.bal + n
    simp only [step]
    omega
  | deliver i res =>
    simp only [step]
    cases hr : w.receipts[i]? with
    | none => exact hi
    | some r =>
      have hok := hi.receipts r (List.mem_of_getElem? hr)
      have hold : ∀ q ∈ w.receipts.eraseIdx i, ReceiptOk q :=
        fun q hq => hi.receipts q (List.mem_of_mem_eraseIdx hq)
      match r, hok with
      | .transfer r x, _ =>
        simp only [execReceipt]
        split
        · refine ⟨hi.state, ?_, hold⟩
          have := hi.money
          show _ ≤ w.bal + x
          simp only
          omega
        · exact ⟨hi.state, hi.money, hold⟩
      | .onTransfer s r x, hok =>
        simp only [execReceipt]
        refine ⟨hi.state, hi.money, ?_⟩
        intro q hq
        rcases List.mem_append.mp hq with hq | hq
        · exact hold q hq
        · simp only [List.mem_singleton] at hq
          subst hq; exact hok
      | .resolve s r x result, hok =>
        obtain ⟨s', used, burned, h1, h2, h3, h4, _⟩ :=
          resolve_total hi.state hok.1 (unused_le x result)
        simp only [execReceipt, callback_eq h1]
        refine ⟨h2, ?_, hold⟩
        have := hi.money
        simp only
        rw [h4]
        omega

theorem winv_run {cfg : Cfg} {usage base : Nat} {w : World} (hi : WInv usage base w) (evs : List Ev) :
    WInv usage base (run cfg w evs) := by
  unfold run
  induction evs generalizing w with
  | nil => exact hi
  | cons ev t ih => exact ih (winv_step hi ev)

theorem started_winv {cfg : Cfg} {w0 : World} (h : Started cfg w0) :
    WInv w0.c.accountStorageUsage w0.bal w0 ∧ w0.c.accountStorageUsage < two64 := by
  obtain ⟨who, usage, s, bal, hn, rfl⟩ := h
  simp only [new, notPayable, bind_ok, require_ok, pure_ok] at hn
  obtain ⟨_, _, _, _, _, hu, rfl⟩ := hn
  refine ⟨⟨⟨rfl, (by decide : 0 < two128), rfl⟩, ?_, fun r hr => by cases hr⟩, hu⟩
  simp [total, registered]

end Verif.WNear
