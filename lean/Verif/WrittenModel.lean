import Verif.FieldsModel
import Verif.OtherTestsModel

/-!
# Tests as they are written

Model of how the instructions of the tests `header`, `address`, `envelope`, `exists`, `hasflag` and `string`
(`FieldsModel`) are executed by the runtime (`TestsModel`, `OtherTestsModel`): which of their fields become which
arguments.

What is simplified.

* `ctx.eval_value`, `HeaderName::parse` and `ctx.get_variable` are parameters.
* `captures` is the set of match variables of the test that the script uses (`match_test_pos`, see `MatchVarModel`); it is
  stored in `MatchType::Matches` and `MatchType::Regex`.
-/

namespace Sieve.Written

open Sieve.Args

/-- What the tests read.  See `src/runtime/tests/test_header.rs:312-316`. -/
structure Env (F N : Type) where
  x : Tests.Ext F
  /-- `ctx.eval_value` -/
  eval : Val F → Expr.Val F
  /-- `HeaderName::parse` -/
  headerName : Tests.Str → Option N
  /-- the header names of `src/runtime/tests/test_header.rs:312-316` -/
  plain : N → Bool
  parts : List (Mime.Part N Tests.Field)
  /-- `ctx.part` -/
  part : Nat
  /-- `ctx.envelope` -/
  envelope : List (Tests.EnvName × Expr.Val F)
  /-- an RFC 3339 date in the time zone of the given offset -/
  shift : Int → Tests.Str → Option Tests.Str
  /-- `ctx.get_variable` on the variable that is called so -/
  getVariable : Val F → Option (Expr.Val F)
  /-- `ctx.get_variable` on `__flags` -/
  flags : Option (Expr.Val F)

variable {F N : Type}

/-- `RelationalMatch`.  For `matchOf`, `src/compiler/grammar/instruction.rs:884-945`. -/
def relOf : Fields.Rel → Tests.Rel
  | .gt => .gt
  | .ge => .ge
  | .lt => .lt
  | .le => .le
  | .eq => .eq
  | .ne => .ne

/-- `MatchType`; `captures` is set by `src/compiler/grammar/instruction.rs:884-945`. -/
def matchOf (captures : Nat) : Fields.MatchType → Tests.Match
  | .is => .is
  | .contains => .contains
  | .glob => .matches captures
  | .regex => .regex captures
  | .list => .list
  | .value r => .value (relOf r)
  | .count r => .count (relOf r)

/-- `Comparator`.  For `header`, `src/runtime/tests/test_header.rs:21-186`. -/
def comparatorOf : Fields.Comparator → Tests.Comparator
  | .octet => .octet
  | .asciiCaseMap => .asciiCaseMap
  | .asciiNumeric => .asciiNumeric
  | .other _ => .other

/-- `AddressPart`.  For `address`, `src/runtime/tests/test_address.rs:29-169`. -/
def partOf : Fields.AddressPart → Tests.AddrPart
  | .localPart => .localPart
  | .domain => .domain
  | .all => .all
  | .user => .user
  | .detail => .detail
  | .name => .name

/-- `src/runtime/tests/test_header.rs:24-30` (runtime). -/
def optsOf (env : Env F N) : Fields.MimeOpts F → Tests.MimeOpts
  | .none => .none
  | .type => .type
  | .subtype => .subtype
  | .contentType => .contentType
  | .param vs => .param (vs.map fun v => Tests.text env.x.flt (env.eval v))

/-- `parse_header_name`, `src/runtime/tests/test_header.rs:204-213` (runtime). -/
def nameOf (env : Env F N) (v : Val F) : Option N := env.headerName (Tests.text env.x.flt (env.eval v))

/-- `TestHeader::exec`, `src/runtime/tests/test_header.rs:21-186` (runtime). -/
def header [DecidableEq N] (env : Env F N) (isNot : Bool) (captures fuel : Nat) (i : Fields.Header F) :
    Option Tests.Outcome :=
  Tests.headerExec env.x env.plain isNot (comparatorOf i.comparator) (matchOf captures i.matchType) (optsOf env i.mimeOpts)
    env.parts env.part (i.headers.filterMap (nameOf env)) i.index i.anyChild fuel (i.keys.map env.eval)

/-- `TestAddress::exec`, `src/runtime/tests/test_address.rs:29-169` (runtime). -/
def address [DecidableEq N] (env : Env F N) (isNot : Bool) (captures fuel : Nat) (i : Fields.Address F) :
    Option Tests.Outcome :=
  Tests.addressExec env.x isNot (comparatorOf i.comparator) (matchOf captures i.matchType) (partOf i.part)
    env.parts env.part (i.headers.filterMap (nameOf env)) i.index i.anyChild fuel (i.keys.map env.eval)

/-- `lookup_envelope`, `src/compiler/grammar/tests/test_envelope.rs:224-238` (compiler), of a name in lower case. -/
def fieldOf (s : List UInt8) : Option Tests.EnvName :=
  if s = bytes "from" then some .from
  else if s = bytes "to" then some .to
  else if s = bytes "bytimeabsolute" then some .byTimeAbsolute
  else if s = bytes "bytimerelative" then some (.other 0)
  else if s = bytes "bymode" then some (.other 1)
  else if s = bytes "bytrace" then some (.other 2)
  else if s = bytes "notify" then some (.other 3)
  else if s = bytes "orcpt" then some .orcpt
  else if s = bytes "ret" then some (.other 4)
  else if s = bytes "envid" then some (.other 5)
  else none

/-- `TestEnvelope::exec`, `src/runtime/tests/test_envelope.rs:20-132` (runtime). -/
def envelope (env : Env F N) (isNot : Bool) (captures : Nat) (i : Fields.Envelope F) : Tests.Outcome :=
  Tests.envelopeTest env.x isNot (comparatorOf i.comparator) (matchOf captures i.matchType) (partOf i.part)
    (i.zone.map env.shift) (i.fields.filterMap fieldOf) env.envelope (i.keys.map env.eval)

/-- `TestExists::exec`, `src/runtime/tests/test_exists.rs:12-36` (runtime). -/
def «exists» [DecidableEq N] (env : Env F N) (isNot : Bool) (fuel : Nat) (i : Fields.Exists F) : Option Bool :=
  Tests.existsTest env.parts env.part (i.headers.map (nameOf env)) i.anyChild isNot fuel

/-- `TestHasFlag::exec`, `src/runtime/tests/test_hasflag.rs:18-96` (runtime). -/
def hasflag (env : Env F N) (isNot : Bool) (captures : Nat) (i : Fields.HasFlag F) : Tests.Outcome :=
  Tests.hasflagTest env.x isNot (comparatorOf i.comparator) (matchOf captures i.matchType)
    (if i.vars.isEmpty then env.flags.toList else i.vars.filterMap env.getVariable) (i.flags.map env.eval)

/-- `TestString::exec`, `src/runtime/tests/test_string.rs:18-105`, called with `false`, `src/runtime/tests/mod.rs:47`. -/
def string (env : Env F N) (isNot : Bool) (captures : Nat) (i : Fields.StringTest F) : Tests.Outcome :=
  Tests.stringTest env.x false isNot (comparatorOf i.comparator) (matchOf captures i.matchType) (i.source.map env.eval)
    (i.keys.map env.eval)

end Sieve.Written
