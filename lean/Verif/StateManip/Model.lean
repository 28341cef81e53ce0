import Verif.Common.Basic

/-!
# Model of state-manipulation (state-manipulation/src/lib.rs)

A contract without state of its own: `replace` (feature `replace`) and `clean` (feature `clean`) edit the raw
storage of the account it is deployed to. The storage is a map from byte strings to byte strings. Base64
decoding (crate `base64`) and the limits of the host are parameters.
-/

namespace Verif.StateManip

open Verif

/-- Byte strings. -/
abbrev Bytes := List UInt8

/-- The raw storage of the account. -/
abbrev Storage := Bytes → Option Bytes

/-- What the code depends on. -/
structure Cfg where
  /-- `base64::decode`; `none` is an error -/
  decode : String → Option Bytes
  /-- whether the host lets a pair be written (key and value length limits) -/
  canWrite : Bytes → Bytes → Bool
  /-- whether the host lets a key be removed (key length limit) -/
  canRemove : Bytes → Bool

/-- state-manipulation/src/lib.rs:45-55 `storage_write`. -/
def storageWrite (cfg : Cfg) (st : Storage) (k v : Bytes) : R Storage :=
  if cfg.canWrite k v = true then .ok (fun k' => if k' = k then some v else st k') else .error "host error"

/-- state-manipulation/src/lib.rs:59-61 `storage_remove`. -/
def storageRemove (cfg : Cfg) (st : Storage) (k : Bytes) : R Storage :=
  if cfg.canRemove k = true then .ok (fun k' => if k' = k then none else st k') else .error "host error"

/-- `base64::decode(s).unwrap()` at state-manipulation/src/lib.rs:88-89 and :106. -/
def decodeUnwrap (cfg : Cfg) (s : String) : R Bytes :=
  match cfg.decode s with
  | some b => .ok b
  | none => .error "called `Result::unwrap()` on an `Err` value"

/-- state-manipulation/src/lib.rs:86-91, the loop of `replace`. -/
def replaceLoop (cfg : Cfg) (st : Storage) : List (String × String) → R Storage
  | [] => .ok st
  | (k, v) :: t => do
    let k ← decodeUnwrap cfg k
    let v ← decodeUnwrap cfg v
    let st ← storageWrite cfg st k v
    replaceLoop cfg st t

/-- state-manipulation/src/lib.rs:105-107, the loop of `clean`. -/
def cleanLoop (cfg : Cfg) (st : Storage) : List String → R Storage
  | [] => .ok st
  | k :: t => do
    let k ← decodeUnwrap cfg k
    let st ← storageRemove cfg st k
    cleanLoop cfg st t

/-- state-manipulation/src/lib.rs:75-92 `replace`; the argument is `none` if there is no input or the input
is not JSON of the expected form (:84-85). -/
def replace (cfg : Cfg) (st : Storage) : Option (List (String × String)) → R Storage
  | none => .error "called `unwrap()` on a missing or malformed input"
  | some entries => replaceLoop cfg st entries

/-- state-manipulation/src/lib.rs:94-108 `clean`. -/
def clean (cfg : Cfg) (st : Storage) : Option (List String) → R Storage
  | none => .error "called `unwrap()` on a missing or malformed input"
  | some keys => cleanLoop cfg st keys

/-- A transaction with one call: the runtime discards the changes of a call that fails. -/
def commit (st : Storage) : R Storage → Storage
  | .ok st' => st'
  | .error _ => st

end Verif.StateManip
