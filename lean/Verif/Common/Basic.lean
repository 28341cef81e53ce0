/-!
# Common vocabulary of all contract models

`R α` is the result of a contract call: `.ok` or a panic. A panic (`assert!`, `expect`, arithmetic
overflow with `overflow-checks = true`, host error) makes the NEAR runtime discard the whole call.
-/

namespace Verif

/-- Account ids are strings (`near_sdk::AccountId = String` in the near-sdk versions used). -/
abbrev AccountId := String

/-- Public keys, opaque strings (base58 text). -/
abbrev PublicKey := String

/-- Result of a call: a value or a panic message. -/
abbrev R (α : Type) := Except String α

/-- `assert!(c, msg)`. -/
def require (c : Prop) [Decidable c] (msg : String) : R Unit :=
  if c then .ok () else .error msg

/-- Number of `u128` values. -/
def two128 : Nat := 2 ^ 128
/-- Number of `u64` values. -/
def two64 : Nat := 2 ^ 64
/-- Number of `u32` values. -/
def two32 : Nat := 2 ^ 32
/-- Number of `U256` values. -/
def two256 : Nat := 2 ^ 256

/-- Checked `u128` addition (`overflow-checks = true` in every `Cargo.toml` release profile,
e.g. staking-pool/Cargo.toml). -/
def addU128 (a b : Nat) : R Nat :=
  if a + b < two128 then .ok (a + b) else .error "attempt to add with overflow"

/-- Checked `u64` addition. -/
def addU64 (a b : Nat) : R Nat :=
  if a + b < two64 then .ok (a + b) else .error "attempt to add with overflow"

/-- Checked `u32` addition. -/
def addU32 (a b : Nat) : R Nat :=
  if a + b < two32 then .ok (a + b) else .error "attempt to add with overflow"

/-- Checked `u128` multiplication. -/
def mulU128 (a b : Nat) : R Nat :=
  if a * b < two128 then .ok (a * b) else .error "attempt to multiply with overflow"

/-- Checked unsigned subtraction (any width). -/
def subU (a b : Nat) : R Nat :=
  if b ≤ a then .ok (a - b) else .error "attempt to subtract with overflow"

/-- `U256` multiplication panics on overflow (crate `uint`). -/
def mulU256 (a b : Nat) : R Nat :=
  if a * b < two256 then .ok (a * b) else .error "arithmetic operation overflow"

/-- `U256` addition panics on overflow (crate `uint`). -/
def addU256 (a b : Nat) : R Nat :=
  if a + b < two256 then .ok (a + b) else .error "arithmetic operation overflow"

/-- Division panics on a zero divisor. -/
def divU (a b : Nat) : R Nat :=
  if b = 0 then .error "division by zero" else .ok (a / b)

/-- `U256::as_u128` panics when the value does not fit (crate `uint`). -/
def asU128 (a : Nat) : R Nat :=
  if a < two128 then .ok a else .error "Integer overflow when casting to u128"

/-! ## Inversion lemmas: how a call can have succeeded -/

theorem ok_bind {α β : Type} (a : α) (f : α → R β) : ((.ok a : R α) >>= f) = f a := rfl

@[simp] theorem require_ok {c : Prop} [Decidable c] {m : String} {u : Unit} :
    require c m = .ok u ↔ c := by
  unfold require; split <;> simp_all

theorem require_true {c : Prop} [Decidable c] {m : String} (h : c) : require c m = .ok () := by
  simp [require, h]

@[simp] theorem addU128_ok {a b c : Nat} : addU128 a b = .ok c ↔ a + b < two128 ∧ c = a + b := by
  unfold addU128; split <;> rename_i h <;> simp [h, eq_comm]

@[simp] theorem addU64_ok {a b c : Nat} : addU64 a b = .ok c ↔ a + b < two64 ∧ c = a + b := by
  unfold addU64; split <;> rename_i h <;> simp [h, eq_comm]

@[simp] theorem addU32_ok {a b c : Nat} : addU32 a b = .ok c ↔ a + b < two32 ∧ c = a + b := by
  unfold addU32; split <;> rename_i h <;> simp [h, eq_comm]

@[simp] theorem mulU128_ok {a b c : Nat} : mulU128 a b = .ok c ↔ a * b < two128 ∧ c = a * b := by
  unfold mulU128; split <;> rename_i h <;> simp [h, eq_comm]

@[simp] theorem subU_ok {a b c : Nat} : subU a b = .ok c ↔ b ≤ a ∧ c = a - b := by
  unfold subU; split <;> rename_i h <;> simp [h, eq_comm]

@[simp] theorem mulU256_ok {a b c : Nat} : mulU256 a b = .ok c ↔ a * b < two256 ∧ c = a * b := by
  unfold mulU256; split <;> rename_i h <;> simp [h, eq_comm]

@[simp] theorem addU256_ok {a b c : Nat} : addU256 a b = .ok c ↔ a + b < two256 ∧ c = a + b := by
  unfold addU256; split <;> rename_i h <;> simp [h, eq_comm]

@[simp] theorem divU_ok {a b c : Nat} : divU a b = .ok c ↔ b ≠ 0 ∧ c = a / b := by
  unfold divU; split <;> rename_i h <;> simp [h, eq_comm]

@[simp] theorem asU128_ok {a c : Nat} : asU128 a = .ok c ↔ a < two128 ∧ c = a := by
  unfold asU128; split <;> rename_i h <;> simp [h, eq_comm]

theorem bind_ok {α β : Type} {x : R α} {f : α → R β} {b : β} :
    (x >>= f) = .ok b ↔ ∃ a, x = .ok a ∧ f a = .ok b := by
  cases x with
  | error e => simp [bind, Except.bind]
  | ok a => simp [bind, Except.bind]

/-! ## Which panic messages are possible -/

theorem bind_err {α β : Type} {x : R α} {f : α → R β} {m : String} :
    (x >>= f) = .error m ↔ x = .error m ∨ ∃ a, x = .ok a ∧ f a = .error m := by
  cases x with
  | error e => simp [bind, Except.bind]
  | ok a => simp [bind, Except.bind]

theorem require_err {c : Prop} [Decidable c] {m m' : String} :
    require c m = .error m' ↔ ¬ c ∧ m = m' := by
  unfold require; split <;> simp_all

theorem mulU256_err {a b : Nat} {m : String} :
    mulU256 a b = .error m → m = "arithmetic operation overflow" := by
  unfold mulU256; split <;> simp [eq_comm]

theorem addU256_err {a b : Nat} {m : String} :
    addU256 a b = .error m → m = "arithmetic operation overflow" := by
  unfold addU256; split <;> simp [eq_comm]

theorem divU_err {a b : Nat} {m : String} : divU a b = .error m → m = "division by zero" := by
  unfold divU; split <;> simp [eq_comm]

theorem asU128_err {a : Nat} {m : String} :
    asU128 a = .error m → m = "Integer overflow when casting to u128" := by
  unfold asU128; split <;> simp [eq_comm]

theorem pure_ok {α : Type} {a b : α} : (pure a : R α) = .ok b ↔ a = b := by
  simp [pure, Except.pure]

theorem throw_ok {α : Type} {m : String} {b : α} : (throw m : R α) = .ok b ↔ False := by
  simp [throw, throwThe, MonadExceptOf.throw]

/-- A call either succeeds or panics. -/
theorem R.cases {α : Type} (x : R α) : (∃ a, x = .ok a) ∨ (∃ e, x = .error e) := by
  cases x with
  | error e => exact .inr ⟨e, rfl⟩
  | ok a => exact .inl ⟨a, rfl⟩

/-- `true` when the call succeeded. -/
def R.isOk {α : Type} : R α → Bool
  | .ok _ => true
  | .error _ => false

end Verif
