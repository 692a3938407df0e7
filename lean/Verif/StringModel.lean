import Verif.Prelude

/-!
# Strings: variables and encoded characters

Model of `CompilerState::tokenize_string` and `add_value` (`src/compiler/lexer/string.rs:35-254, 495-533`), which
turn the text of a string into a sequence of texts, numbers and variables, and of `Context::eval_value`
(`src/runtime/eval.rs:92-124`), which puts the values of the variables in.

Simplifications.  The result of looking up a variable (`parse_variable`, `parse_match_variable`) is a parameter; that
it also registers a match variable is left out.  Parsing and printing of numbers is a parameter.  Text is given by its
bytes; `into_string`, which replaces what is not UTF-8, is left out.
-/

namespace Sieve.Str

/-- For `Item`, `src/compiler/mod.rs:105-111`. -/
abbrev Bytes := List UInt8

/-- What `parse_variable` and `parse_match_variable` return: a variable, `Ok(None)`, one of the errors
`InvalidNamespace` and `InvalidEnvelope`, or another error.  For `addPlain`, `string.rs:503-524`. -/
inductive Look (V : Type) where
  | var (v : V)
  | none
  | invalid
  | fail

/-- The environment: `named` is `parse_variable` with `maybe_namespace`, `numbered` is `parse_match_variable`; numbers
are parsed and printed by the four functions.  For `addPlain`, `string.rs:503-524`. -/
structure Ext (V F : Type) where
  named : Bool → Bytes → Look V
  numbered : Bytes → Look V
  parseInt : Bytes → Option Int
  showInt : Int → Bytes
  parseFlt : Bytes → Option F
  showFlt : F → Bytes

/-- `Value`, `src/compiler/mod.rs:105-111`, as far as `tokenize_string` makes them. -/
inductive Item (V F : Type) where
  | text (t : Bytes)
  | int (n : Int)
  | flt (f : F)
  | var (v : V)
deriving DecidableEq

/-- `State`, `string.rs:25-32` -/
inductive Mode where
  | text
  | name
  | encoded (unicode : Bool) (init : Nat)
deriving DecidableEq

/-- The local variables of `tokenize_string`; `hex` is `hex_start` (`none` for `usize::MAX`).
For `inText`, `string.rs:58-83`. -/
structure St (V F : Type) where
  mode : Mode
  items : List (Item V F)
  last : UInt8
  start : Nat
  isNum : Bool
  hasNs : Bool
  digits : Bool
  dots : Bool
  hex : Option Nat
  buf : Bytes

variable {V F : Type}

/-- See `compiler/lexer/string.rs:35-60`. -/
def St.new : St V F := ⟨.text, [], 0, 0, true, false, true, false, none, []⟩

/-- For `inText`, `string.rs:58-83`. -/
def isDigit (c : UInt8) : Bool := 48 ≤ c && c ≤ 57

/-- `b'a'..=b'z' | b'A'..=b'Z' | b'_' | b'[' | b']' | b'*' | b'-'`.  For `inVariable`, `string.rs:84-161`. -/
def isNameChar (c : UInt8) : Bool :=
  (97 ≤ c && c ≤ 122) || (65 ≤ c && c ≤ 90) || c = 95 || c = 91 || c = 93 || c = 42 || c = 45

/-- For `inEncoded`, `string.rs:163-206`. -/
def isHex (c : UInt8) : Bool := isDigit c || (97 ≤ c && c ≤ 102) || (65 ≤ c && c ≤ 70)

/-- For `inEncoded`, `string.rs:163-206`. -/
def isBlank (c : UInt8) : Bool := c = 32 || c = 9 || c = 13 || c = 10

/-- `&bytes[a..b]`.  For `endVariable`, `string.rs:94-131`. -/
def slice (bytes : Bytes) (a b : Nat) : Bytes := (bytes.take b).drop a

/-- For `colon`, `string.rs:132-157`. -/
def lowerByte (c : UInt8) : UInt8 := if 65 ≤ c ∧ c ≤ 90 then c + 32 else c

/-- `eq_ignore_ascii_case`.  For `colon`, `string.rs:132-157`. -/
def sameWord (a b : Bytes) : Bool := a.map lowerByte == b.map lowerByte

/-- The value of a hexadecimal digit.  For `decodeWord`, `string.rs:172-193`. -/
def hexDigit (c : UInt8) : Nat :=
  if isDigit c then c.toNat - 48 else if 97 ≤ c then c.toNat - 87 else c.toNat - 55

/-- For `decodeWord`, `string.rs:172-193`. -/
def hexValue (w : Bytes) : Nat := w.foldl (fun n c => n * 16 + hexDigit c) 0

/-- `char::from_u32` and `encode_utf8`.  For `decodeWord`, `string.rs:172-193`. -/
def utf8 (n : Nat) : Option Bytes :=
  if n < 0x80 then some [UInt8.ofNat n]
  else if n < 0x800 then some [UInt8.ofNat (0xC0 + n / 64), UInt8.ofNat (0x80 + n % 64)]
  else if 0xD800 ≤ n ∧ n < 0xE000 then none
  else if n < 0x10000 then some [UInt8.ofNat (0xE0 + n / 4096), UInt8.ofNat (0x80 + n / 64 % 64), UInt8.ofNat (0x80 + n % 64)]
  else if n < 0x110000 then
    some [UInt8.ofNat (0xF0 + n / 262144), UInt8.ofNat (0x80 + n / 4096 % 64), UInt8.ofNat (0x80 + n / 64 % 64), UInt8.ofNat (0x80 + n % 64)]
  else none

/-- The end of a number, `string.rs:172-193`: the bytes it stands for, `some none` for `is_var_error`, `none` for the
error `InvalidUnicodeSequence`. -/
def decodeWord (unicode : Bool) (w : Bytes) : Option (Option Bytes) :=
  let n := hexValue w
  if unicode then
    if n < 2 ^ 32 then (utf8 n).map some else some none
  else if n < 256 then some (some [UInt8.ofNat n]) else some none

/-- `add_value` with `parse_decoded` false, `string.rs:503-524` -/
def addPlain (x : Ext V F) (items : List (Item V F)) (buf : Bytes) (digits dots : Bool) : Option (List (Item V F)) :=
  some (items ++ [
    if digits then
      if dots then
        match x.parseFlt buf with
        | some f => if x.showFlt f = buf then .flt f else .text buf
        | none => .text buf
      else
        match x.parseInt buf with
        | some n => if x.showInt n = buf then .int n else .text buf
        | none => .text buf
    else .text buf])

section Loop
variable (x : Ext V F) (decoded : Bool) (add : List (Item V F) → Bytes → Bool → Bool → Option (List (Item V F)))

/-- `State::None`, `string.rs:58-83` -/
def inText (pos : Nat) (s : St V F) (c : UInt8) : St V F :=
  if c = 123 ∧ s.last = 36 then
    { s with buf := s.buf.dropLast, start := pos + 1, isNum := true, hasNs := false, mode := .name }
  else if c = 46 then
    if s.dots then { s with digits := false, buf := s.buf ++ [c] } else { s with dots := true, buf := s.buf ++ [c] }
  else if isDigit c then { s with buf := s.buf ++ [c] }
  else { s with digits := false, buf := s.buf ++ [c] }

/-- The text before a variable, `string.rs:96-108` -/
def flush (s : St V F) : Option (St V F) :=
  if s.buf = [] then some s
  else (add s.items s.buf s.digits s.dots).map fun items => { s with items := items, buf := [], digits := true, dots := false }

/-- The closing brace of a variable, `string.rs:94-131`: the state and `is_var_error`. -/
def endVariable (bytes : Bytes) (pos : Nat) (s : St V F) : Option (St V F × Bool) :=
  if s.start < pos then do
    let s ← flush add s
    let name := slice bytes s.start pos
    match if s.isNum then x.numbered name else x.named s.hasNs name with
    | .var v => some ({ s with items := s.items ++ [.var v], mode := .text }, false)
    | .none => some ({ s with mode := .text }, false)
    | .invalid => some ({ s with mode := .text }, true)
    | .fail => none
  else some (s, true)

/-- A colon in a variable, `string.rs:132-157` -/
def colon (bytes : Bytes) (pos : Nat) (s : St V F) : St V F × Bool :=
  if decoded && !s.hasNs then
    if sameWord (slice bytes s.start pos) [104, 101, 120] then ({ s with mode := .encoded false s.buf.length }, false)
    else if sameWord (slice bytes s.start pos) [117, 110, 105, 99, 111, 100, 101] then
      ({ s with mode := .encoded true s.buf.length }, false)
    else (s, true)
  else if s.hasNs then ({ s with isNum := false }, false)
  else (s, true)

/-- `State::Variable`, `string.rs:84-161` -/
def inVariable (bytes : Bytes) (pos : Nat) (s : St V F) (c : UInt8) : Option (St V F × Bool) :=
  if isNameChar c then some ({ s with isNum := false }, false)
  else if c = 46 then some ({ s with isNum := false, hasNs := true }, false)
  else if isDigit c then some (s, false)
  else if c = 125 then endVariable x add bytes pos s
  else if c = 58 then some (colon decoded bytes pos s)
  else some (s, true)

/-- The end of a number, `string.rs:172-193` -/
def endWord (bytes : Bytes) (pos : Nat) (unicode : Bool) (s : St V F) : Option (St V F × Bool) :=
  match s.hex with
  | none => some (s, false)
  | some a =>
    match decodeWord unicode (slice bytes a pos) with
    | none => none
    | some none => some ({ s with hex := none }, true)
    | some (some b) => some ({ s with hex := none, buf := s.buf ++ b }, false)

/-- `State::Encoded`, `string.rs:163-206` -/
def inEncoded (bytes : Bytes) (pos : Nat) (unicode : Bool) (init : Nat) (s : St V F) (c : UInt8) : Option (St V F × Bool) :=
  if isHex c then some (if s.hex.isNone then { s with hex := some pos } else s, false)
  else if isBlank c || c = 125 then do
    let (s, bad) ← endWord bytes pos unicode s
    if c = 125 then
      if s.buf.length ≠ init then some ({ s with mode := .text }, bad) else some (s, true)
    else some (s, bad)
  else some (s, true)

/-- `is_var_error`, `string.rs:209-221`: the text read since the dollar sign is plain text. -/
def recover (bytes : Bytes) (pos : Nat) (s : St V F) : St V F :=
  let buf := match s.mode with
    | .encoded _ init => s.buf.take init
    | _ => s.buf
  { s with buf := buf ++ slice bytes (s.start - 2) (pos + 1), hex := none, mode := .text }

/-- One round of the loop, `string.rs:54-224` -/
def step (bytes : Bytes) (pos : Nat) (s : St V F) (c : UInt8) : Option (St V F) := do
  let (s, bad) ← match s.mode with
    | .text => some (inText pos s c, false)
    | .name => inVariable x decoded add bytes pos s c
    | .encoded unicode init => inEncoded bytes pos unicode init s c
  let s := if bad then recover bytes pos s else s
  return { s with last := c }

/-- The loop: `rest` is what remains of `bytes`.  For `tokenize`, `string.rs:35-254`. -/
def loop (bytes : Bytes) : Nat → Bytes → St V F → Option (St V F)
  | _, [], s => some s
  | pos, c :: rest, s => (step x decoded add bytes pos s c).bind (loop bytes (pos + 1) rest)

/-- After the loop, `string.rs:226-254`; no items mean an empty text. -/
def finish (bytes : Bytes) (s : St V F) : Option (List (Item V F)) := do
  let s := match s.mode with
    | .text => s
    | .name => { s with buf := s.buf ++ slice bytes (s.start - 2) bytes.length }
    | .encoded _ init => { s with buf := s.buf.take init ++ slice bytes (s.start - 2) bytes.length }
  let items ← if s.buf = [] then some s.items else add s.items s.buf s.digits s.dots
  return if items = [] then [.text []] else items

end Loop

variable [DecidableEq V] [DecidableEq F]

/-- `tokenize_string` with `parse_decoded` false.  For `addDecoded`, `string.rs:526-529`. -/
def tokenizePlain (x : Ext V F) (bytes : Bytes) : Option (List (Item V F)) :=
  (loop x false (addPlain x) bytes 0 bytes .new).bind (finish (addPlain x) bytes)

/-- `add_value` with `parse_decoded` true, `string.rs:526-529` -/
def addDecoded (x : Ext V F) (items : List (Item V F)) (buf : Bytes) (_ _ : Bool) : Option (List (Item V F)) :=
  (tokenizePlain x buf).map (items ++ ·)

/-- `tokenize_string`, `string.rs:35-254`; the strings of a script are read with `decoded` true (`grammar/mod.rs:326-334`),
the decoded texts in them with `decoded` false. -/
def tokenize (x : Ext V F) (decoded : Bool) (bytes : Bytes) : Option (List (Item V F)) :=
  if decoded then (loop x true (addDecoded x) bytes 0 bytes .new).bind (finish (addDecoded x) bytes)
  else tokenizePlain x bytes

/-- Values at run time: `get` is `Context::variable`, `toText` is `to_string`, the others are the conversions to
`Variable` (`src/runtime/mod.rs:38-107`, `src/runtime/eval.rs:26`). -/
structure Values (V F R : Type) where
  get : V → Option R
  toText : R → Bytes
  str : Bytes → R
  int : Int → R
  flt : F → R
  default : R

/-- An item in `Value::List`, `eval.rs:99-117` -/
def evalItem {R : Type} (x : Ext V F) (e : Values V F R) : Item V F → Bytes
  | .text t => t
  | .int n => x.showInt n
  | .flt f => x.showFlt f
  | .var v => match e.get v with
    | some r => e.toText r
    | none => []

/-- `Context::eval_value`, `src/runtime/eval.rs:95-125`: a single item is a value itself, several make a text. -/
def evalValue {R : Type} (x : Ext V F) (e : Values V F R) : List (Item V F) → R
  | [.text t] => e.str t
  | [.int n] => e.int n
  | [.flt f] => e.flt f
  | [.var v] => (e.get v).getD e.default
  | items => e.str (items.flatMap (evalItem x e))

end Sieve.Str
