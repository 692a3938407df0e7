/-
Model of the address scanners: `sanitize_address` (action_redirect.rs), `parse_envelope_address`
(test_envelope.rs), `parse_mailto` (action_notify.rs), and of the user's From field (context.rs).
-/
namespace Sieve.Address

/-! ### sanitize_address -/

/-- char::is_ascii_whitespace: space, tab, LF, FF, CR.  For `San.step`, `src/runtime/actions/action_redirect.rs:97-129`. -/
def asciiSpace (c : Char) : Bool := c == ' ' || c == '\t' || c == '\n' || c == '\x0c' || c == '\r'

/-- The local variables of src/runtime/actions/action_redirect.rs:90-94. -/
structure San where
  result : List Char := []
  inQuote : Bool := false
  lastCh : Char := '\n'
  hasAt : Bool := false
  hasDot : Bool := false

/-- src/runtime/actions/action_redirect.rs:97-129, one iteration; `none` = `return None`. -/
def San.step (s : San) (ch : Char) : Option San :=
  if ch = '"' then
    some { s with
      inQuote := if !s.inQuote then true else if s.lastCh != '\\' then false else s.inQuote
      lastCh := ch }
  else if ch = '@' ∧ s.inQuote = false then
    if s.hasAt = false ∧ s.result ≠ [] then
      some { s with hasAt := true, result := s.result ++ [ch], lastCh := ch }
    else none
  else if ch = '.' ∧ s.inQuote = false ∧ s.hasAt = true ∧ s.hasDot = false then
    some { s with hasDot := true, result := s.result ++ [ch], lastCh := ch }
  else if ch = '<' then
    some { s with result := [], hasAt := false, hasDot := false, lastCh := ch }
  else if ch = '>' then some { s with lastCh := ch }
  else if asciiSpace ch = false ∨ s.inQuote = true then
    some { s with result := s.result ++ [ch], lastCh := ch }
  else some { s with lastCh := ch }

/-- The loop.  For `sanitizeAddress`, `src/runtime/actions/action_redirect.rs:89-137`. -/
def San.run : San → List Char → Option San
  | s, [] => some s
  | s, c :: cs => (s.step c).bind (·.run cs)

/-- src/runtime/actions/action_redirect.rs:89-137 `sanitize_address`. -/
def sanitizeAddress (addr : List Char) : Option (List Char) :=
  (San.run {} addr).bind fun s =>
    if s.result ≠ [] ∧ s.hasAt = true ∧ s.hasDot = true then some s.result else none

/-! ### parse_envelope_address -/

/-- u8::is_ascii_whitespace.  For `Env.step`, `src/runtime/tests/test_envelope.rs:185-246`. -/
def byteSpace (b : UInt8) : Bool := b == 32 || b == 9 || b == 10 || b == 12 || b == 13

/-- u8::to_ascii_lowercase.  For `Env.finish`, `src/runtime/tests/test_envelope.rs:248-257`. -/
def byteLower (b : UInt8) : UInt8 := if 65 ≤ b ∧ b ≤ 90 then b + 32 else b

/-- The local variables of src/runtime/tests/test_envelope.rs:172-179. -/
structure Env where
  start : Nat := 0
  stop : Nat
  lastCh : UInt8 := 0
  at_ : Nat := 0
  hasBracket : Bool := false
  inPath : Bool := false
deriving DecidableEq

/-- Outcome of one iteration of the loop: go on, or return from the function.  For `Env.step`, `src/runtime/tests/test_envelope.rs:185-246`. -/
inductive EnvStep where
  | go (s : Env)
  | ret (r : Option (List UInt8))
deriving DecidableEq

/-- src/runtime/tests/test_envelope.rs:185-246, one iteration at position `pos` of a string of length `len`. -/
def Env.step (len pos : Nat) (s : Env) (ch : UInt8) : EnvStep :=
  if ch = 60 then            -- '<'
    if pos = 0 then .go { s with start := pos + 1, hasBracket := true, lastCh := ch }
    else .ret none
  else if ch = 62 then       -- '>'
    if s.hasBracket = true ∧ pos = len - 1 then
      if 2 < len then .go { s with hasBracket := false, stop := pos, lastCh := ch }
      else .ret (some [])
    else .ret none
  else if ch = 58 then       -- ':'
    if s.at_ ≠ 0 then .go { s with at_ := 0, start := pos + 1, inPath := false, lastCh := ch }
    else .ret none
  else if ch = 44 then       -- ','
    if s.at_ ≠ 0 then .go { s with at_ := 0, inPath := true, lastCh := ch } else .ret none
  else if ch = 64 then       -- '@'
    if s.at_ = 0 ∧ pos ≠ len - 1 then .go { s with at_ := pos, lastCh := ch } else .ret none
  else if ch = 46 then       -- '.'
    if (s.at_ ≠ 0 ∧ s.lastCh = 46) ∨ s.lastCh = 64 then .ret none
    else .go { s with lastCh := ch }
  else if byteSpace ch = true ∨ ¬ ch < 128 then .ret none
  else .go { s with lastCh := ch }

/-- The loop from position `pos`.  For `parseEnvelope`, `src/runtime/tests/test_envelope.rs:171-258`. -/
def Env.run (len : Nat) : Nat → Env → List UInt8 → EnvStep
  | _, s, [] => .go s
  | pos, s, c :: cs =>
    match s.step len pos c with
    | .go s' => s'.run len (pos + 1) cs
    | .ret r => .ret r

/-- "mailer-daemon".  For `Env.finish`, `src/runtime/tests/test_envelope.rs:248-257`. -/
def mailerDaemon : List UInt8 := [109, 97, 105, 108, 101, 114, 45, 100, 97, 101, 109, 111, 110]

/-- src/runtime/tests/test_envelope.rs:248-257, after the loop. -/
def Env.finish (addr : List UInt8) (s : Env) : Option (List UInt8) :=
  let piece := (addr.take s.stop).drop s.start
  if s.hasBracket = false ∧ s.inPath = false ∧ s.start < s.at_ ∧ s.at_ < s.stop - 1 then some piece
  else if s.at_ = 0 ∧ piece.map byteLower = mailerDaemon then some piece
  else none

/-- src/runtime/tests/test_envelope.rs:171-258 `parse_envelope_address`.  (`from_utf8(..).unwrap()` cannot fail: every
byte is ASCII; `addr.get(start..stop)` is `None` for `stop < start`, modelled as the empty piece,
which is not "mailer-daemon".) -/
def parseEnvelope (addr : List UInt8) : Option (List UInt8) :=
  if addr = [] then some []
  else match Env.run addr.length 0 { stop := addr.length } addr with
    | .go s => s.finish addr
    | .ret r => r

/-! ### parse_mailto -/

/-- The address headers.  For `MState`, `src/runtime/actions/action_notify.rs:361-365`. -/
inductive Hdr where
  | to | cc | bcc
deriving DecidableEq

/-- What `HeaderName::parse` (plus the comparison with "body") makes of a parameter name.
For `MState`, `src/runtime/actions/action_notify.rs:361-365`. -/
inductive Param where
  | addr (h : Hdr)
  | body
  | other (name : List UInt8)
deriving DecidableEq

/-- src/runtime/actions/action_notify.rs:361-365 `State`. -/
inductive MState where
  | address (h : Hdr) (hasAt : Bool)
  | paramName
  | paramValue (p : Param)
deriving DecidableEq

/-- src/runtime/actions/action_notify.rs:367-374 `MailtoMessage`; strings are UTF-8 byte lists. -/
structure Mailto where
  to_ : List (List UInt8) := []
  cc : List (List UInt8) := []
  bcc : List (List UInt8) := []
  body : Option (List UInt8) := none
  headers : List (List UInt8 × List UInt8) := []
deriving DecidableEq

/-- All recipients, in the order they are searched.  For `insertAddress`, `src/runtime/actions/action_notify.rs:560-581`. -/
def Mailto.all (m : Mailto) : List (List UInt8) := m.to_ ++ (m.cc ++ m.bcc)

/-- str::eq_ignore_ascii_case.  For `insertAddress`, `src/runtime/actions/action_notify.rs:560-581`. -/
def eqIgnoreCase (a b : List UInt8) : Bool := a.map byteLower == b.map byteLower

/-- src/runtime/actions/action_notify.rs:560-581 `insert_address`. -/
def insertAddress (m : Mailto) (h : Hdr) (value : List UInt8) : Mailto :=
  if m.all.any (fun v => eqIgnoreCase v value) then m
  else match h with
    | .to => { m with to_ := m.to_ ++ [value] }
    | .cc => { m with cc := m.cc ++ [value] }
    | .bcc => { m with bcc := m.bcc ++ [value] }

/-- The local variables of `parse_mailto`.  For `MS.decoded`, `src/runtime/actions/action_notify.rs:395-428`. -/
structure MS where
  params : Mailto := {}
  state : MState := .address .to false
  buf : List UInt8 := []
  hasAddresses : Bool := false
deriving DecidableEq

/-- External functions: UTF-8 validity (`String::from_utf8(..).ok()`), and `HeaderName::parse`
classified.  For `MS.decoded`, `src/runtime/actions/action_notify.rs:395-428`. -/
structure MExt where
  utf8 : List UInt8 → Bool
  parse : List UInt8 → Param

/-- HEX_MAP.  For `MS.run`, `src/runtime/actions/action_notify.rs:390-533`. -/
def hexVal (b : UInt8) : Option UInt8 :=
  if 48 ≤ b ∧ b ≤ 57 then some (b - 48)
  else if 97 ≤ b ∧ b ≤ 102 then some (b - 87)
  else if 65 ≤ b ∧ b ≤ 70 then some (b - 55)
  else none

/-- Take the buffer as a string and insert it as an address.  For `MS.decoded`, `src/runtime/actions/action_notify.rs:395-428`. -/
def MS.flushAddr (x : MExt) (s : MS) (h : Hdr) : Option MS :=
  if x.utf8 s.buf then some { s with params := insertAddress s.params h s.buf, buf := [] } else none

/-- src/runtime/actions/action_notify.rs:395-428: a percent-decoded byte. -/
def MS.decoded (x : MExt) (s : MS) (ch : UInt8) : Option MS :=
  match s.state with
  | .address h hasAt =>
    if ch = 44 then
      if hasAt then
        (s.flushAddr x h).map fun s => { s with hasAddresses := true, state := .address h false }
      else none
    else if ch = 64 then
      if !hasAt then some { s with state := .address h true, buf := s.buf ++ [ch] } else none
    else some { s with buf := s.buf ++ [ch] }
  | _ => some { s with buf := s.buf ++ [ch] }

/-- Storing a parameter value (src/runtime/actions/action_notify.rs:503-508 and 542-548). -/
def Mailto.store (m : Mailto) (p : Param) (value : List UInt8) : Mailto :=
  match p with
  | .body => { m with body := some value }
  | .other name => { m with headers := m.headers ++ [(name, value)] }
  | .addr _ => m

/-- src/runtime/actions/action_notify.rs:430-532: an undecoded byte other than `%`. -/
def MS.plain (x : MExt) (s : MS) (ch : UInt8) : Option MS :=
  if ch = 44 then               -- ','
    match s.state with
    | .address h true =>
      (s.flushAddr x h).map fun s => { s with state := .address h false, hasAddresses := true }
    | .paramValue _ => some { s with buf := s.buf ++ [ch] }
    | _ => none
  else if ch = 63 then          -- '?'
    match s.state with
    | .address h hasAt =>
      if hasAt = true ∨ s.buf = [] then
        if s.buf ≠ [] then
          (s.flushAddr x h).map fun s => { s with hasAddresses := true, state := .paramName }
        else some { s with state := .paramName }
      else none
    | .paramValue _ => some { s with buf := s.buf ++ [ch] }
    | _ => none
  else if ch = 64 then          -- '@'
    match s.state with
    | .address h false =>
      if s.buf ≠ [] then some { s with buf := s.buf ++ [ch], state := .address h true } else none
    | .address _ true => none
    | _ => some { s with buf := s.buf ++ [ch] }
  else if ch = 61 then          -- '='
    match s.state with
    | .paramName =>
      if s.buf ≠ [] then
        if x.utf8 s.buf then
          some { s with
            buf := []
            state := match x.parse s.buf with
              | .addr h => .address h false
              | p => .paramValue p }
        else none
      else none
    | .paramValue _ => some { s with buf := s.buf ++ [ch] }
    | _ => none
  else if ch = 38 then          -- '&'
    match s.state with
    | .address h true =>
      if s.buf ≠ [] then (s.flushAddr x h).map fun s => { s with state := .paramName }
      else some { s with state := .paramName }
    | .paramValue p =>
      if s.buf ≠ [] then
        if x.utf8 s.buf then
          some { s with params := s.params.store p s.buf, buf := [], state := .paramName }
        else none
      else some { s with state := .paramName }
    | _ => none
  else
    match s.state with
    | .paramName =>
      if (48 ≤ ch ∧ ch ≤ 57) ∨ (65 ≤ ch ∧ ch ≤ 90) ∨ (97 ≤ ch ∧ ch ≤ 122) ∨ ch = 45 ∨ ch = 95 then
        some { s with buf := s.buf ++ [ch] }
      else none
    | _ => if byteSpace ch then some s else some { s with buf := s.buf ++ [ch] }

/-- src/runtime/actions/action_notify.rs:390-533: the loop. -/
def MS.run (x : MExt) : MS → List UInt8 → Option MS
  | s, [] => some s
  | s, [ch] => if ch = 37 then none else s.plain x ch
  | s, [ch, c1] =>
    if ch = 37 then none else (s.plain x ch).bind (·.run x [c1])
  | s, ch :: c1 :: c2 :: cs =>
    if ch = 37 then
      match hexVal c1, hexVal c2 with
      | some a, some b => (s.decoded x (a * 16 + b)).bind (·.run x cs)
      | _, _ => none
    else (s.plain x ch).bind (·.run x (c1 :: c2 :: cs))

/-- src/runtime/actions/action_notify.rs:535-557: after the loop. -/
def MS.finish (x : MExt) (s : MS) : Option Mailto :=
  (if s.buf ≠ [] then
    if x.utf8 s.buf then
      match s.state with
      | .address h true =>
        some { s with params := insertAddress s.params h s.buf, hasAddresses := true }
      | .paramName =>
        some { s with params := { s.params with headers := s.params.headers ++ [(s.buf, [])] } }
      | .paramValue p => some { s with params := s.params.store p s.buf }
      | .address _ false => none
    else none
  else some s).bind fun s => if s.hasAddresses then some s.params else none

/-- src/runtime/actions/action_notify.rs:380-557 `parse_mailto`. -/
def parseMailto (x : MExt) (uri : List UInt8) : Option Mailto :=
  (MS.run x {} uri).bind (·.finish x)

/-! ### The user's From field -/

/-- context.rs:527-536 `set_user_full_name`. -/
def setUserFullName (name : List Char) : List Char :=
  name.flatMap fun ch => if ch = '"' ∨ ch = '\\' then ['\\', ch] else [ch]

/-- context.rs:620-626 `user_from_field`. -/
def userFromField (fullName address : List Char) : List Char :=
  if fullName ≠ [] then ['"'] ++ fullName ++ ['"', ' ', '<'] ++ address ++ ['>']
  else address

end Sieve.Address
