import Verif.Whitelist.Props
import Verif.Voting.Props
import Verif.WNear.Props
import Verif.Factory.PoolProps
import Verif.Factory.LockupProps

/-!
# Initialization of whitelist, voting, wrapped NEAR and the factories (C85)

For each of these contracts: exactly when `new` is accepted, and what the views report right after it.
-/

namespace Verif.Whitelist

open Verif

/-- **C85.** `new` of the whitelist is accepted exactly without deposit, before any state exists and with
a valid foundation id; then nothing is whitelisted and exactly the given foundation administers it. -/
theorem C85_new_exact (valid : AccountId → Bool) (who : AccountId) (att : Nat) (stateExists : Bool)
    (fnd : AccountId) :
    ((∃ s, new (mkEnv valid who att) stateExists fnd = .ok s) ↔
      att = 0 ∧ stateExists = false ∧ valid fnd = true) ∧
    ∀ s, new (mkEnv valid who att) stateExists fnd = .ok s →
      (∀ p, ¬ PoolIn valid s p) ∧ (∀ f, ¬ FactoryIn valid s f) ∧
      ∀ x f, valid f = true → ((∃ s' b, Calls valid s ⟨x, 0, .addFactory f⟩ s' b) ↔ x = fnd) := by
  constructor
  · simp only [new, notPayable, bind_ok, require_ok, pure_ok]
    constructor
    · rintro ⟨s, _, h1, _, h2, _, h3, _⟩; exact ⟨h1, h2, h3⟩
    · rintro ⟨h1, h2, h3⟩; exact ⟨_, (), h1, (), h2, (), h3, rfl⟩
  · intro s h
    simp only [new, notPayable, bind_ok, require_ok, pure_ok] at h
    obtain ⟨_, h1, _, h2, _, h3, rfl⟩ := h
    refine ⟨fun p hp => ?_, fun p hp => ?_, fun x f hf => ?_⟩
    · have := (poolIn_iff.mp hp).2; simp at this
    · have := (factoryIn_iff.mp hp).2; simp at this
    · have hst : Started valid fnd { foundation := fnd, whitelist := .empty, factoryWhitelist := .empty } := by
        refine ⟨who, ?_⟩
        simp only [new, notPayable, bind_ok, require_ok, pure_ok]
        exact ⟨(), rfl, (), trivial, (), h3, trivial⟩
      have := C40_success_iff hst [] ⟨x, 0, .addFactory f⟩
      simp only [run, List.foldl_nil] at this
      rw [this]
      simp [Allowed, Call.id, hf]

example : ∃ s, new (mkEnv (fun a => a ≠ "") "deployer" 0) false "foundation" = .ok s :=
  ((C85_new_exact _ _ _ _ _).1).mpr ⟨rfl, rfl, rfl⟩

end Verif.Whitelist

namespace Verif.Voting

open Verif

/-- **C85.** `new` of the poll is accepted exactly without deposit and before any state exists; the poll
is then open and without votes. -/
theorem C85_new_exact (e : Env) (stateExists : Bool) :
    ((∃ s, new e stateExists = .ok s) ↔ e.attachedDeposit = 0 ∧ stateExists = false) ∧
    ∀ s, new e stateExists = .ok s →
      getResult s = none ∧ getVotes s = [] ∧ (∀ e', (getTotalVotedStake e' s).1 = 0) := by
  constructor
  · simp only [new, notPayable, bind_ok, require_ok, pure_ok]
    constructor
    · rintro ⟨s, _, h1, _, h2, _⟩; exact ⟨h1, h2⟩
    · rintro ⟨h1, h2⟩; exact ⟨_, (), h1, (), h2, rfl⟩
  · intro s h
    simp only [new, notPayable, bind_ok, require_ok, pure_ok] at h
    obtain ⟨_, h1, _, h2, rfl⟩ := h
    exact ⟨rfl, rfl, fun _ => rfl⟩

example : ∃ s, new ⟨"deployer", 0, 7, 11, .empty⟩ false = .ok s := ((C85_new_exact _ _).1).mpr ⟨rfl, rfl⟩

end Verif.Voting

namespace Verif.WNear

open Verif

/-- **C85.** `new` of wrapped NEAR is accepted exactly without deposit and before any state exists; then
nobody is registered and there are no tokens. -/
theorem C85_new_exact (e : Env) (stateExists : Bool) (usage : Nat) (hu : usage < two64) :
    ((∃ s, new e stateExists usage = .ok s) ↔ e.attachedDeposit = 0 ∧ stateExists = false) ∧
    ∀ s, new e stateExists usage = .ok s →
      totalSupply s = 0 ∧ (∀ a, balanceOf s a = 0 ∧ storageBalanceOf s a = none) ∧
      minBalance s = 10 ^ 19 * usage := by
  constructor
  · simp only [new, notPayable, bind_ok, require_ok, pure_ok]
    constructor
    · rintro ⟨s, _, h1, _, h2, _⟩; exact ⟨h1, h2⟩
    · rintro ⟨h1, h2⟩; exact ⟨_, (), h1, (), h2, (), hu, rfl⟩
  · intro s h
    simp only [new, notPayable, bind_ok, require_ok, pure_ok] at h
    obtain ⟨_, h1, _, h2, _, h3, rfl⟩ := h
    refine ⟨rfl, fun a => ⟨?_, ?_⟩, rfl⟩
    · simp [balanceOf]
    · simp [storageBalanceOf, UMap.contains]

example : ∃ s, new (mkEnv demoCfg demo0 "deployer" 0 true []) false 125 = .ok s :=
  ((C85_new_exact _ _ 125 (by decide)).1).mpr ⟨rfl, rfl⟩

/-- **C69.** `storage_balance_of` reports the minimum, none of it available, exactly for registered
accounts. -/
theorem C69_storage_balance (s : State) (a : AccountId) :
    (s.accounts.contains a = true → storageBalanceOf s a = some (minBalance s, 0)) ∧
    (s.accounts.contains a = false → storageBalanceOf s a = none) := by
  unfold storageBalanceOf
  constructor <;> intro h <;> simp [h]

end Verif.WNear

namespace Verif.PoolFactory

open Verif

/-- **C85.** `new` of the staking pool factory is accepted exactly without deposit, before any state exists
and with a valid whitelist id; no pool has been created then. -/
theorem C85_new_exact (e : Env) (stateExists : Bool) (whitelistId : AccountId) :
    ((∃ s, new e stateExists whitelistId = .ok s) ↔
      e.attachedDeposit = 0 ∧ stateExists = false ∧ e.validAccountId whitelistId = true) ∧
    ∀ s, new e stateExists whitelistId = .ok s → s.whitelistId = whitelistId ∧ getNumberOfPools s = 0 := by
  constructor
  · simp only [new, notPayable, bind_ok, require_ok, pure_ok]
    constructor
    · rintro ⟨s, _, h1, _, h2, _, h3, _⟩; exact ⟨h1, h2, h3⟩
    · rintro ⟨h1, h2, h3⟩; exact ⟨_, (), h1, (), h2, (), h3, rfl⟩
  · intro s h
    simp only [new, notPayable, bind_ok, require_ok, pure_ok] at h
    obtain ⟨_, h1, _, h2, _, h3, rfl⟩ := h
    exact ⟨rfl, rfl⟩

example : ∃ s, new ⟨"pools.near", "deployer", 0, 50, [], fun a => a ≠ ""⟩ false "whitelist.near" = .ok s :=
  ((C85_new_exact _ _ _).1).mpr ⟨rfl, rfl, rfl⟩

end Verif.PoolFactory

namespace Verif.LockupFactory

open Verif

/-- **C85.** `new` of the lockup factory is accepted exactly without deposit, before any state exists, with
valid ids, and only on an account whose id has at most 23 characters. -/
theorem C85_new_exact (e : Env) (stateExists : Bool) (whitelist foundation : AccountId) :
    ((∃ s, new e stateExists whitelist foundation = .ok s) ↔
      e.attachedDeposit = 0 ∧ stateExists = false ∧ e.validAccountId whitelist = true ∧
      e.validAccountId foundation = true ∧ e.self.length ≤ 23) ∧
    ∀ s, new e stateExists whitelist foundation = .ok s →
      s.whitelist = whitelist ∧ getFoundation s = foundation := by
  constructor
  · simp only [new, notPayable, decodeId, bind_ok, require_ok, pure_ok, String.length_toList]
    constructor
    · rintro ⟨s, _, h1, _, h2, _, h3, _, h4, _, h5, _⟩; exact ⟨h1, h4, h2, h3, h5⟩
    · rintro ⟨h1, h4, h2, h3, h5⟩; exact ⟨_, (), h1, (), h2, (), h3, (), h4, (), h5, rfl⟩
  · intro s h
    simp only [new, notPayable, decodeId, bind_ok, require_ok, pure_ok] at h
    obtain ⟨_, h1, _, h2, _, h3, _, h4, _, h5, rfl⟩ := h
    exact ⟨rfl, rfl⟩

example : ∃ s, new ⟨"lockup.near", "deployer", 0, 50, [], fun a => a ≠ "", id⟩ false "whitelist.near"
    "foundation.near" = .ok s :=
  ((C85_new_exact _ _ _ _).1).mpr ⟨rfl, rfl, rfl, rfl, by decide⟩
/-- An id of 24 characters is too long. -/
example : ¬ ∃ s, new ⟨"lockup-of-the-fndtn.near", "deployer", 0, 50, [], fun a => a ≠ "", id⟩ false
    "whitelist.near" "foundation.near" = .ok s :=
  fun h => absurd ((C85_new_exact _ _ _ _).1.mp h).2.2.2.2 (by decide)

end Verif.LockupFactory
