import Verif.Factory.Runtime

/-!
# Valid account ids

The protocol's rule (nearcore, near-sdk `is_valid_account_id`; not in /repo): 2 to 64 characters, lower
case letters and digits, with single separators `-`, `_`, `.` between them.
-/

namespace Verif.AccountIds

open Verif Verif.Factory

/-- Lower case letter or digit. -/
def alnum (c : Char) : Bool := ('a' ≤ c && c ≤ 'z') || ('0' ≤ c && c ≤ '9')

/-- Separator. -/
def sep (c : Char) : Bool := c == '-' || c == '_' || c == '.'

/-- The loop of the check; `last`: the last character was a separator (or there was none). -/
def go (last : Bool) : List Char → Bool
  | [] => !last
  | c :: t => if alnum c then go false t else if sep c then !last && go true t else false

/-- The check. -/
def isValid (id : AccountId) : Bool :=
  decide (2 ≤ id.toList.length ∧ id.toList.length ≤ 64) && go true id.toList

theorem go_alnum {l : List Char} (h : ∀ c ∈ l, alnum c = true) (hne : l ≠ []) (last : Bool)
    (t : List Char) : go last (l ++ t) = go false t := by
  induction l generalizing last with
  | nil => exact absurd rfl hne
  | cons c r ih =>
    have hc := h c (by simp)
    simp only [List.cons_append, go, hc, if_true]
    by_cases hr : r = []
    · subst hr; rfl
    · exact ih (fun x hx => h x (by simp [hx])) hr false

theorem go_dot (t : List Char) : go false ('.' :: t) = go true t := by
  simp [go, alnum, sep]

/-- A name of letters and digits in front of a valid id is valid, unless it is too long. -/
theorem isValid_sub {name parent : AccountId} (hn : ∀ c ∈ name.toList, alnum c = true)
    (hne : name.toList ≠ []) (hp : isValid parent = true)
    (hl : name.toList.length + parent.toList.length ≤ 63) : isValid (subAccount name parent) = true := by
  have h : (subAccount name parent).toList = name.toList ++ '.' :: parent.toList := by
    simp [subAccount, String.toList_append]
  unfold isValid at hp ⊢
  rw [h]
  simp only [Bool.and_eq_true, decide_eq_true_eq] at hp ⊢
  obtain ⟨⟨h1, h2⟩, h3⟩ := hp
  refine ⟨?_, ?_⟩
  · simp only [List.length_append, List.length_cons]; omega
  · rw [go_alnum hn hne, go_dot]; exact h3

/-- Lower case hexadecimal digit. -/
def hexDigit (n : Nat) : Char := if n < 10 then Char.ofNat (48 + n) else Char.ofNat (87 + n)

/-- `hex::encode`. -/
def hexEncode (l : List UInt8) : List Char :=
  l.flatMap (fun b => [hexDigit (b.toNat / 16), hexDigit (b.toNat % 16)])

theorem hexDigit_alnum : ∀ n < 16, alnum (hexDigit n) = true := by decide

theorem hexEncode_alnum (l : List UInt8) : ∀ c ∈ hexEncode l, alnum c = true := by
  intro c hc
  simp only [hexEncode, List.mem_flatMap, List.mem_cons, List.not_mem_nil, or_false] at hc
  obtain ⟨b, _, hb⟩ := hc
  have := b.toNat_lt
  rcases hb with rfl | rfl
  · exact hexDigit_alnum _ (by omega)
  · exact hexDigit_alnum _ (by omega)

theorem hexEncode_length (l : List UInt8) : (hexEncode l).length = 2 * l.length := by
  induction l with
  | nil => rfl
  | cons b t ih =>
    have : hexEncode (b :: t) = hexDigit (b.toNat / 16) :: hexDigit (b.toNat % 16) :: hexEncode t := rfl
    rw [this]
    simp only [List.length_cons, ih]
    omega

theorem hexDigit_inj : ∀ m < 16, ∀ n < 16, hexDigit m = hexDigit n → m = n := by decide

/-- The encoding loses nothing. -/
theorem hexEncode_inj {l1 l2 : List UInt8} (h : hexEncode l1 = hexEncode l2) : l1 = l2 := by
  induction l1 generalizing l2 with
  | nil =>
    cases l2 with
    | nil => rfl
    | cons b t => simp [hexEncode] at h
  | cons a s ih =>
    cases l2 with
    | nil => simp [hexEncode] at h
    | cons b t =>
      have e1 : hexEncode (a :: s) = hexDigit (a.toNat / 16) :: hexDigit (a.toNat % 16) :: hexEncode s := rfl
      have e2 : hexEncode (b :: t) = hexDigit (b.toNat / 16) :: hexDigit (b.toNat % 16) :: hexEncode t := rfl
      rw [e1, e2] at h
      simp only [List.cons.injEq] at h
      obtain ⟨h1, h2, h3⟩ := h
      have la := a.toNat_lt
      have lb := b.toNat_lt
      have g1 := hexDigit_inj _ (by omega) _ (by omega) h1
      have g2 := hexDigit_inj _ (by omega) _ (by omega) h2
      have : a = b := UInt8.toNat_inj.mp (by omega)
      rw [this, ih h3]

end Verif.AccountIds
