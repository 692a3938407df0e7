import Verif.ExprValue
import Verif.FlagsModel
import Verif.GlobModel
import Verif.MimeModel

/-!
# Tests

Model of the comparators (`src/runtime/tests/comparator.rs`) and of the `string`, `environment`,
`header`, `address`, `envelope` and `hasflag` tests (`src/runtime/tests/test_*.rs`).

The searches of the code call a visitor on one value after another until it returns `true`; here the
values are collected in a list first and the visitor is run over the list (`each`), which makes no
difference since no visitor changes what is searched.  Evaluated keys and sources are the starting point
(`Context::eval_values`), header names are parsed already.
-/

namespace Sieve.Tests
open Sieve.Expr (Val Flt)

variable {F N : Type}

/-- Text.  For `addItem`, `src/runtime/mod.rs:274-292`. -/
abbrev Str := List Char
/-- `captured_values`: match variable numbers and their values.  For `Comparator.glob`, `comparator.rs:55-69`. -/
abbrev Caps := List (Nat × Str)

/-- `Comparator`, `src/compiler/grammar/mod.rs:147-154`; `other` is `Elbonia` and `Other`. -/
inductive Comparator where
  | octet | asciiNumeric | asciiCaseMap | other
deriving DecidableEq

/-- `RelationalMatch`, `src/compiler/grammar/mod.rs:129-136`. -/
inductive Rel where
  | gt | ge | lt | le | eq | ne
deriving DecidableEq

/-- `MatchType`, `src/compiler/grammar/mod.rs:110-118`; the numbers are the sets of match variables that the
script uses. -/
inductive Match where
  | is | contains | value (r : Rel) | matches (cp : Nat) | regex (cp : Nat) | count (r : Rel) | list
deriving DecidableEq

/-- The parts of `mail_parser`'s `ContentType` that the tests read.  For `valuesOf`, `src/runtime/tests/test_header.rs:308-361`. -/
structure CType where
  main : Str
  sub : Option Str
  attrs : Option (List (Str × Str))

/-- `mail_parser`'s `Addr`.  For `evalAddr`, `src/runtime/tests/test_address.rs:249-264`. -/
structure Addr where
  name : Option Str
  address : Option Str

/-- `mail_parser`'s `HeaderValue`.  For `valuesOf`, `src/runtime/tests/test_header.rs:308-361`. -/
inductive Parsed where
  | text (t : Str)
  | contentType (ct : CType)
  | addresses (l : List Addr)
  | groups (l : List (List Addr))
  | other

/-- A header of the message: its parsed value, whether it was added by the script (`offset_end = 0`), and
the bytes between `offset_start` and `offset_end` (empty if out of range).  For `headerValues`, `src/runtime/tests/test_header.rs:278-362`. -/
structure Field where
  parsed : Parsed
  added : Bool
  raw : List UInt8

/-- `AddressPart`, `src/compiler/grammar/mod.rs:92-99`. -/
inductive AddrPart where
  | all | localPart | domain | user | detail | name
deriving DecidableEq

/-- What the tests use of other libraries: floating point numbers, Unicode, regular expressions
(`fancy_regex`) and the parsers of `mail_parser`.  For `number`, `src/runtime/mod.rs:71-74`. -/
structure Ext (F : Type) where
  flt : Flt F
  /-- `f64::INFINITY` -/
  inf : F
  cm : Glob.CaseMap
  /-- `char::is_whitespace` -/
  ws : Char → Bool
  /-- `Regex::is_match`: pattern, value; `false` for invalid patterns -/
  isMatch : Str → Str → Bool
  /-- `Regex::captures`: pattern, value; the groups by number -/
  captures : Str → Str → Option (Nat → Option Str)
  /-- `String::into_bytes` -/
  utf8 : Str → List UInt8
  parseUnstructured : List UInt8 → Parsed
  parseContentType : List UInt8 → Parsed
  parseAddress : List UInt8 → Parsed
  /-- `parse_address_local_part` and so on -/
  part : AddrPart → Str → Option Str
  eqIgnoreCase : Str → Str → Bool

/-- `Vec<Variable>::to_string`, `src/runtime/mod.rs:274-292`: one step for each item. -/
def addItem (A : Flt F) (acc : Str) (v : Val F) : Str :=
  (if acc.isEmpty then acc else acc ++ ['\r', '\n']) ++
    match v with
    | .str s => s
    | .int n => A.showInt n
    | .flt x => A.showFlt x
    | .arr _ => []

/-- `Variable::to_string`, `src/runtime/mod.rs:62-69`. -/
def text (A : Flt F) : Val F → Str
  | .str s => s
  | .int n => A.showInt n
  | .flt x => A.showFlt x
  | .arr l => l.foldl (addItem A) []

/-- `Variable::is_empty`, `src/runtime/mod.rs:117-122`. -/
def isEmpty : Val F → Bool
  | .str s => s.isEmpty
  | _ => false

/-- `Variable::to_number_checked`, `src/runtime/mod.rs:76-89`. -/
def numberChecked (A : Flt F) : Val F → Option (Expr.Num F)
  | .int n => some (.int n)
  | .flt x => some (.flt x)
  | .arr _ => none
  | .str s =>
    if s.isEmpty then none
    else if s.contains '.' then (A.parseFlt s).map .flt
    else (A.parseInt s).map .int

/-- `Variable::to_number`, `src/runtime/mod.rs:71-74`. -/
def number (x : Ext F) (v : Val F) : Expr.Num F :=
  match numberChecked x.flt v with
  | some n => n
  | none => .flt x.inf

/-- The implementations of `Comparable`, `comparator.rs:20-23, 140-160`: strings of the message, and
variables. -/
inductive Item (F : Type) where
  | text (s : Str)
  | val (v : Val F)

/-- `Comparable::to_str`.  For `Comparator.is`, `comparator.rs:26-32`. -/
def Item.str (x : Ext F) : Item F → Str
  | .text s => s
  | .val v => Tests.text x.flt v

/-- `Comparable::to_number`.  For `Comparator.is`, `comparator.rs:26-32`. -/
def Item.number (x : Ext F) : Item F → Expr.Num F
  | .text s =>
    match x.flt.parseFlt s with
    | some f => .flt f
    | none => .flt x.flt.zero
  | .val v => Tests.number x v

/-- `PartialEq` of `Number`, `src/runtime/mod.rs:244-253`. -/
def numEq (A : Flt F) : Expr.Num F → Expr.Num F → Bool
  | .int a, .int b => a == b
  | .flt a, .flt b => A.eq a b
  | .int a, .flt b => A.eq (A.ofInt a) b
  | .flt a, .int b => A.eq a (A.ofInt b)

/-- `RelationalMatch::cmp`, `comparator.rs:162-177`, with the provided methods of `PartialOrd`:
`partial_cmp` and `eq` are given. -/
def Rel.cmp : Rel → Option Ordering → Bool → Bool
  | .gt, o, _ => o == some .gt
  | .ge, o, _ => o == some .gt || o == some .eq
  | .lt, o, _ => o == some .lt
  | .le, o, _ => o == some .lt || o == some .eq
  | .eq, _, e => e
  | .ne, _, e => !e

/-- `RelationalMatch::cmp` on `Number`.  For `Comparator.is`, `comparator.rs:26-32`. -/
def Rel.num (A : Flt F) (r : Rel) (a b : Expr.Num F) : Bool := r.cmp (a.cmp A b) (numEq A a b)

/-- `RelationalMatch::cmp` on `str`.  For `Comparator.is`, `comparator.rs:26-32`. -/
def Rel.str (r : Rel) (a b : Str) : Bool := r.cmp (some (Expr.cmpStr a b)) (a == b)

/-- `Comparator::is`, `comparator.rs:26-32`. -/
def Comparator.is (x : Ext F) (c : Comparator) (a b : Item F) : Bool :=
  match c with
  | .octet => a.str x == b.str x
  | .asciiNumeric => Rel.num x.flt .eq (a.number x) (b.number x)
  | _ => x.cm.strLower (a.str x) == x.cm.strLower (b.str x)

/-- `str::contains`: the needle at some position.  For `Comparator.contains`, `comparator.rs:34-40`. -/
def infixOf (needle hay : Str) : Bool := hay.tails.any needle.isPrefixOf

/-- `Comparator::contains`, `comparator.rs:34-40`. -/
def Comparator.contains (x : Ext F) (c : Comparator) (hay needle : Str) : Bool :=
  needle.isEmpty ||
    match c with
    | .octet => infixOf needle hay
    | _ => infixOf (x.cm.strLower needle) (x.cm.strLower hay)

/-- `Comparator::relational`, `comparator.rs:42-53`. -/
def Comparator.relational (x : Ext F) (c : Comparator) (r : Rel) (a b : Item F) : Bool :=
  match c with
  | .octet => r.str (a.str x) (b.str x)
  | .asciiNumeric => r.num x.flt (a.number x) (b.number x)
  | _ => r.str (x.cm.strLower (a.str x)) (x.cm.strLower (b.str x))

/-- `Comparator::matches`, `comparator.rs:55-69`.  `globMatches` and `globCapture` always return
(`Glob.matches_octet` and following), so that the last alternatives do not occur. -/
def Comparator.glob (x : Ext F) (c : Comparator) (caps : Caps) (value pattern : Str) (cp : Nat) : Caps × Bool :=
  let lower := c == .asciiCaseMap
  let p := Glob.compile x.cm pattern lower
  if cp = 0 then (caps, Glob.globMatches x.cm lower p value == some true)
  else
    match Glob.globCapture x.cm lower p value cp with
    | some (some l) => (l, true)
    | some none => (caps, false)
    | none => (caps, false)

/-- `eval_regex`, `comparator.rs:122-135`, the loop: set bits from the highest to the lowest. -/
def regexCaps (g : Nat → Option Str) (cp : Nat) : Nat → Caps
  | 0 => []
  | i + 1 =>
    (if cp.testBit i then
      match g i with
      | some t => [(i, t)]
      | none => []
    else []) ++ regexCaps g cp i

/-- `Comparator::regex` and `eval_regex`, `comparator.rs:71-138`. -/
def regexMatch (x : Ext F) (caps : Caps) (value pattern : Str) (cp : Nat) : Caps × Bool :=
  if cp = 0 then (caps, x.isMatch pattern value)
  else
    match x.captures pattern value with
    | some g => (regexCaps g cp 64, true)
    | none => (caps, false)

/-- One value against one key; the same in all tests.  For `stringKey`, `src/runtime/tests/test_string.rs:18-105`. -/
def attempt (x : Ext F) (c : Comparator) (m : Match) (value key : Item F) (caps : Caps) : Caps × Bool :=
  match m with
  | .is => (caps, c.is x value key)
  | .contains => (caps, c.contains x (value.str x) (key.str x))
  | .value r => (caps, c.relational x r value key)
  | .matches cp => c.glob x caps (value.str x) (key.str x) cp
  | .regex cp => regexMatch x caps (value.str x) (key.str x) cp
  | .count _ => (caps, false)
  | .list => (caps, false)

/-- A loop that is left as soon as its body returns `true`.  For `hasflagTest`, `src/runtime/tests/test_hasflag.rs:18-96`. -/
def each {σ α : Type} (f : α → σ → σ × Bool) : List α → σ → σ × Bool
  | [], s => (s, false)
  | a :: as, s =>
    match f a s with
    | (s', true) => (s', true)
    | (s', false) => each f as s'

/-- `TestResult`, `src/runtime/tests/mod.rs:32-36`; the only event of these tests is `ListContains`. -/
inductive Result where
  | bool (b : Bool)
  | listContains (lists values : List Str) (c : Comparator) (isNot : Bool)
deriving DecidableEq

/-- Result of a test, and the argument of `set_match_variables` (not called if empty).
For `listTest`, `src/runtime/tests/test_header.rs:156-186`. -/
structure Outcome where
  result : Result
  caps : Caps
deriving DecidableEq

/-- The comparison of a count with the keys, e.g. `src/runtime/tests/test_header.rs:147-154`. -/
def countTest (x : Ext F) (r : Rel) (n : Nat) (keys : List (Val F)) : Bool :=
  keys.any fun k => r.num x.flt (.int n) (number x k)

/-- The values for a `:list` test, e.g. `src/runtime/tests/test_header.rs:164-169`. -/
def distinct (vals : List Str) : List Str :=
  vals.foldl (fun acc v => if !v.isEmpty && !acc.any (· == v) then acc ++ [v] else acc) []

/-- The `:list` branch, e.g. `src/runtime/tests/test_header.rs:156-186`. -/
def listTest (x : Ext F) (isNot : Bool) (c : Comparator) (vals : List Str) (keys : List (Val F)) : Outcome :=
  if (distinct vals).isEmpty then ⟨.bool (false ^^ isNot), []⟩
  else ⟨.listContains (keys.map (text x.flt)) (distinct vals) c isNot, []⟩

/-- `TestString::exec`, `src/runtime/tests/test_string.rs:18-105`: one key, its sources. -/
def stringKey (x : Ext F) (emptyIsNull : Bool) (c : Comparator) (m : Match) (key : Val F) :
    List (Val F) → Caps × Bool → Caps × Bool
  | [], s => s
  | src :: srcs, s =>
    if !emptyIsNull || !isEmpty src then
      match attempt x c m (.val src) (.val key) s.1 with
      | (caps, true) => (caps, true)
      | (caps, false) => stringKey x emptyIsNull c m key srcs (caps, false)
    else stringKey x emptyIsNull c m key srcs s

/-- `TestString::exec`, `src/runtime/tests/test_string.rs:18-105`; also used for `environment`. -/
def stringTest (x : Ext F) (emptyIsNull isNot : Bool) (c : Comparator) (m : Match) (sources keys : List (Val F)) :
    Outcome :=
  match m with
  | .count r =>
    let n := (sources.filter fun s => !isEmpty s).length
    ⟨.bool (((!emptyIsNull || 0 < n) && countTest x r n keys) ^^ isNot), []⟩
  | .list => listTest x isNot c (sources.map (text x.flt)) keys
  | _ =>
    let s := keys.foldl (fun s key => stringKey x emptyIsNull c m key sources s) ([], false)
    ⟨.bool (s.2 ^^ isNot), s.1⟩

/-- The search common to `header`, `address` and `envelope`: each value against each key.
For `headerTest`, `src/runtime/tests/test_header.rs:21-186`. -/
def search (x : Ext F) (c : Comparator) (m : Match) (vals : List Str) (keys : List (Val F)) : Caps × Bool :=
  each (fun v => each (fun k => attempt x c m (.text v) (.val k)) keys) vals []

/-- `MimeOpts`, `src/compiler/grammar/actions/action_mime.rs:83-89`. -/
inductive MimeOpts where
  | none | type | subtype | contentType | param (names : List Str)

/-- `find_header_values`, `src/runtime/tests/test_header.rs:308-361`: the values of a header that is not added by the script,
or of the content type read from an added one.  `plain` are the names listed in lines 312-316. -/
def valuesOf (x : Ext F) (plain : Bool) (opts : MimeOpts) (raw : List UInt8) (p : Parsed) : List Str :=
  match opts with
  | .none =>
    match plain, p with
    | true, .text t => [t]
    | _, _ =>
      match x.parseUnstructured raw with
      | .text t => [t]
      | _ => [[]]
  | .type =>
    match p with
    | .contentType ct => [ct.main]
    | _ => [[]]
  | .subtype =>
    match p with
    | .contentType ct =>
      match ct.sub with
      | some s => [s]
      | none => [[]]
    | _ => [[]]
  | .contentType =>
    match p with
    | .contentType ct =>
      match ct.sub with
      | some s => [ct.main ++ '/' :: s]
      | none => [ct.main]
    | _ => [[]]
  | .param names =>
    match p with
    | .contentType ct =>
      (match ct.attrs with
        | some as => names.flatMap fun n => (as.filter fun a => x.eqIgnoreCase n a.1).map Prod.snd
        | none => []) ++ [[]]
    | _ => [[]]

/-- `find_header_values`, `src/runtime/tests/test_header.rs:278-362`: the values passed to the visitor (as compiled without
`cfg(test)`). -/
def headerValues (x : Ext F) (plain : Bool) (opts : MimeOpts) (f : Field) : List Str :=
  if f.added then
    match f.parsed with
    | .text t =>
      match opts with
      | .none => [t]
      | o => valuesOf x plain o f.raw (x.parseContentType (x.utf8 (t ++ ['\n'])))
    | _ => []
  else valuesOf x plain opts f.raw f.parsed

/-- How much a header adds to the count, `src/runtime/tests/test_header.rs:111-145`. -/
def headerCount (x : Ext F) (opts : MimeOpts) (f : Field) : Nat :=
  match opts with
  | .none => 1
  | .param names =>
    match f.parsed with
    | .contentType ct =>
      match ct.attrs with
      | some as => (as.filter fun a => names.any fun n => x.eqIgnoreCase n a.1).length
      | none => 0
    | _ => 0
  | _ =>
    match f.parsed with
    | .contentType _ => 1
    | _ => 0

/-- `TestHeader::exec`, `src/runtime/tests/test_header.rs:21-186`; `found` are the headers passed to the visitor of
`find_headers` (`Mime.findHeaders`). -/
def headerTest (x : Ext F) (plain : N → Bool) (isNot : Bool) (c : Comparator) (m : Match) (opts : MimeOpts)
    (found : List (Mime.Header N Field)) (keys : List (Val F)) : Outcome :=
  let vals := found.flatMap fun h => headerValues x (plain h.name) opts h.value
  match m with
  | .count r => ⟨.bool (countTest x r (found.map fun h => headerCount x opts h.value).sum keys ^^ isNot), []⟩
  | .list => listTest x isNot c vals keys
  | _ =>
    let s := search x c m vals keys
    ⟨.bool (s.2 ^^ isNot), s.1⟩

/-- `AddressPart::eval`, `src/runtime/tests/test_address.rs:249-264`. -/
def evalAddr (x : Ext F) (part : AddrPart) (a : Addr) : Option Str :=
  let email := match a.address with
    | some e => some e
    | none => a.name
  match part with
  | .all => email
  | .name => a.name
  | p =>
    match email with
    | some e => if e.isEmpty then email else x.part p e
    | none => none

/-- `find_addresses`, `src/runtime/tests/test_address.rs:180-202` and `219-241`: the addresses in a parsed value, none if it
is not an address list. -/
def addrsOf : Parsed → Option (List Addr)
  | .addresses l => some l
  | .groups l => some l.flatten
  | _ => none

/-- `find_addresses`, `src/runtime/tests/test_address.rs:174-245`: the values passed to the visitor. -/
def addressValues (x : Ext F) (part : AddrPart) (f : Field) : List Str :=
  match addrsOf f.parsed with
  | some l => l.filterMap (evalAddr x part)
  | none =>
    let bytes :=
      if !f.added then f.raw
      else match f.parsed with
        | .text t => x.utf8 (t ++ ['\n'])
        | _ => []
    match addrsOf (x.parseAddress bytes) with
    | some l => l.filterMap (evalAddr x part)
    | none => [[]]

/-- `TestAddress::exec`, `src/runtime/tests/test_address.rs:29-169`. -/
def addressTest (x : Ext F) (isNot : Bool) (c : Comparator) (m : Match) (part : AddrPart)
    (found : List (Mime.Header N Field)) (keys : List (Val F)) : Outcome :=
  let vals := found.flatMap fun h => addressValues x part h.value
  match m with
  | .count r => ⟨.bool (countTest x r (vals.filter fun v => !v.isEmpty).length keys ^^ isNot), []⟩
  | .list => listTest x isNot c vals keys
  | _ =>
    let s := search x c m vals keys
    ⟨.bool (s.2 ^^ isNot), s.1⟩

/-- `Envelope`, `src/lib.rs:155-166`, as far as the test distinguishes the names. -/
inductive EnvName where
  | from | to | orcpt | byTimeAbsolute | other (n : Nat)
deriving DecidableEq

/-- `AddressPart::eval_string`, `src/runtime/tests/test_address.rs:282-295`. -/
def evalString (x : Ext F) (part : AddrPart) (s : Str) : Option Str :=
  if s.isEmpty then some s
  else match part with
    | .all => some s
    | .name => some s
    | p => x.part p s

/-- `find_envelopes`, `src/runtime/tests/test_envelope.rs:136-168`: the value passed to the callback; `zone` re-expresses a
date in the given time zone, if there is one. -/
def envelopeValue (x : Ext F) (part : AddrPart) (zone : Option (Str → Option Str)) (name : EnvName) (v : Val F) :
    Option Str :=
  match name with
  | .from | .to | .orcpt => evalString x part (text x.flt v)
  | .byTimeAbsolute =>
    match zone with
    | some z =>
      match z (text x.flt v) with
      | some t => some t
      | none => some []
    | none => some (text x.flt v)
  | .other _ => some (text x.flt v)

/-- `TestEnvelope::exec`, `src/runtime/tests/test_envelope.rs:20-132`. -/
def envelopeTest (x : Ext F) (isNot : Bool) (c : Comparator) (m : Match) (part : AddrPart)
    (zone : Option (Str → Option Str)) (names : List EnvName) (env : List (EnvName × Val F)) (keys : List (Val F)) :
    Outcome :=
  let vals := (env.filter fun e => names.contains e.1).filterMap fun e => envelopeValue x part zone e.1 e.2
  match m with
  | .count r => ⟨.bool (countTest x r (vals.filter fun v => !v.isEmpty).length keys ^^ isNot), []⟩
  | .list => listTest x isNot c vals keys
  | _ =>
    let s := search x c m vals keys
    ⟨.bool (s.2 ^^ isNot), s.1⟩

/-- `TestHasFlag::exec`, `src/runtime/tests/test_hasflag.rs:18-96`; `vars` are the values of the variables that exist
(`__flags` if none is given).  `:regex` is treated as `:matches` (line 68). -/
def hasflagTest (x : Ext F) (isNot : Bool) (c : Comparator) (m : Match) (vars keys : List (Val F)) : Outcome :=
  let flags := (vars.filter fun v => !isEmpty v).map fun v => Flags.splitSp (text x.flt v)
  match m with
  | .count r => ⟨.bool (countTest x r (flags.map List.length).sum keys ^^ isNot), []⟩
  | _ =>
    let m' := match m with
      | .regex cp => .matches cp
      | m => m
    let s := each (fun k => each (fun fs => each (fun f => attempt x c m' (.text f) (.text k)) fs) flags)
      (Flags.tokens x.ws (keys.map (text x.flt))) []
    ⟨.bool (s.2 ^^ isNot), s.1⟩

/-- `TestHeader::exec` on a message: `find_headers` (`Mime.findHeaders`) provides the headers.
See `src/runtime/tests/test_header.rs:21-186`. -/
def headerExec [DecidableEq N] (x : Ext F) (plain : N → Bool) (isNot : Bool) (c : Comparator) (m : Match)
    (opts : MimeOpts) (parts : List (Mime.Part N Field)) (part : Nat) (names : List N) (index : Option Int)
    (anychild : Bool) (fuel : Nat) (keys : List (Val F)) : Option Outcome :=
  (Mime.findHeaders parts part names index anychild fuel).map fun found =>
    headerTest x plain isNot c m opts (found.map (·.1)) keys

/-- `TestAddress::exec` on a message.  See `src/runtime/tests/test_address.rs:29-169`. -/
def addressExec [DecidableEq N] (x : Ext F) (isNot : Bool) (c : Comparator) (m : Match) (apart : AddrPart)
    (parts : List (Mime.Part N Field)) (part : Nat) (names : List N) (index : Option Int)
    (anychild : Bool) (fuel : Nat) (keys : List (Val F)) : Option Outcome :=
  (Mime.findHeaders parts part names index anychild fuel).map fun found =>
    addressTest x isNot c m apart (found.map (·.1)) keys

end Sieve.Tests
