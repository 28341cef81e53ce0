import Verif.Common.Basic

/-!
# Access keys of an account

Protocol rules used by the multisig contracts: what the holder of a key may sign. A function-call key
names a receiver and a comma separated list of methods (empty: every method); its transactions consist
of one function call without deposit. Allowances are not modelled (0 means unlimited in near-sdk).
-/

namespace Verif

/-- The permission of an access key. -/
inductive Perm where
  | full
  /-- `methods` as passed to `add_access_key`: comma separated, empty for every method -/
  | fn (receiver : AccountId) (methods : String)
deriving DecidableEq, Repr

/-- Split at commas. -/
def splitCommas : List Char → List (List Char)
  | [] => [[]]
  | c :: t =>
    if c = ',' then [] :: splitCommas t
    else
      match splitCommas t with
      | [] => [[c]]
      | x :: r => (c :: x) :: r

/-- Whether a key with this permission may sign the call of `method` at `receiver` without deposit. -/
def Perm.permits (p : Perm) (receiver : AccountId) (method : String) : Bool :=
  match p with
  | .full => true
  | .fn r ms => r = receiver && (ms = "" || (splitCommas ms.toList).contains method.toList)

end Verif
