import Verif.Prelude

/-!
# The lexer

Model of `src/compiler/lexer/tokenizer.rs`: the tokens that `Tokenizer::next` returns one after the
other for the bytes of a script, and the error that ends them, if any.

What is abstracted.

* Line numbers and positions are left out (see `PosModel`).
* The table of words (`lookup_words`), and the conversions between text and numbers used for strings that are
  numbers, are parameters.  Texts are byte strings; `into_string` (which replaces invalid UTF-8) is left out.
* `next` returns one token per call and keeps a second one in `next_token`; the model lists the tokens.  After an
  error the compiler stops, so the list ends there.
-/

namespace Sieve.Lex

/-- `Number`, `src/compiler/mod.rs:282-285`: `F` is `f64`. -/
inductive Num (F : Type) where
  | int (n : Int)
  | flt (x : F)
deriving DecidableEq

/-- `Token`, `src/compiler/lexer/mod.rs:18-34`, without those of other lexers. -/
inductive Token (W F : Type) where
  | curlyOpen | curlyClose | bracketOpen | bracketClose | parenOpen | parenClose | comma | semicolon | colon
  | tag (w : W)
  | ident (w : W)
  | number (n : Nat)
  | unknown (s : List UInt8)
  /-- `StringConstant::String` -/
  | string (s : List UInt8)
  /-- `StringConstant::Number` -/
  | stringNumber (n : Num F)
  /-- `StringVariable`: a string in which variables are to be looked for -/
  | stringVar (s : List UInt8)
deriving DecidableEq

/-- For `lex`, `src/compiler/lexer/tokenizer.rs:561-570`. -/
inductive Err where
  | invalidCharacter | stringTooLong | unterminated
deriving DecidableEq

/-- Parameters.  See `src/compiler/lexer/word.rs:143`. -/
structure Ext (W F : Type) where
  /-- `lookup_words`, `src/compiler/lexer/word.rs:143` -/
  word : List UInt8 → Option W
  parseInt : List UInt8 → Option Int
  showInt : Int → List UInt8
  parseFlt : List UInt8 → Option F
  showFlt : F → List UInt8
  /-- `compiler.max_string_size` -/
  maxString : Nat

/-- `StringType`, `src/compiler/lexer/tokenizer.rs:54-60`. -/
structure StrType where
  maybeVariable : Bool := false
  hasOther : Bool := false
  hasDigits : Bool := false
  hasDots : Bool := false
deriving DecidableEq

/-- `State`, `src/compiler/lexer/tokenizer.rs:46-52`. -/
inductive Mode where
  | none
  | bracket
  | hash
  | quoted (t : StrType)
  | multi (t : StrType)
deriving DecidableEq

/-- `Tokenizer`, `src/compiler/lexer/tokenizer.rs:17-37`. -/
structure St where
  buf : List UInt8 := []
  isTag : Bool := false
  last : UInt8 := 0
  mode : Mode := .none
deriving DecidableEq

variable {W F : Type}

/-- For `wordToken`, `src/compiler/lexer/tokenizer.rs:84-117`. -/
def isDigit (c : UInt8) : Bool := 48 ≤ c && c ≤ 57
/-- For `stepNone`, `src/compiler/lexer/tokenizer.rs:338-428`. -/
def isLower (c : UInt8) : Bool := 97 ≤ c && c ≤ 122
/-- For `stepNone`, `src/compiler/lexer/tokenizer.rs:338-428`. -/
def isUpper (c : UInt8) : Bool := 65 ≤ c && c ≤ 90

/-- `str::parse::<usize>` for a non-empty string of digits: fails on anything else and on overflow.
For `wordToken`, `src/compiler/lexer/tokenizer.rs:84-117`. -/
def parseGo : Nat → List UInt8 → Option Nat
  | n, [] => some n
  | n, c :: cs => if isDigit c && n * 10 + (c.toNat - 48) < 2 ^ 64 then parseGo (n * 10 + (c.toNat - 48)) cs else none

/-- For `wordToken`, `src/compiler/lexer/tokenizer.rs:84-117`. -/
def parseUsize (s : List UInt8) : Option Nat := if s.isEmpty then none else parseGo 0 s

/-- `src/compiler/lexer/tokenizer.rs:93-98`. -/
def multiplier (last : UInt8) : Nat :=
  if last = 107 then 1024 else if last = 109 then 1048576 else if last = 103 then 1073741824 else 1

/-- The token of a word, `src/compiler/lexer/tokenizer.rs:84-117`. -/
def wordToken (x : Ext W F) (buf : List UInt8) (isTag : Bool) : Token W F :=
  let unknown : Token W F := if isTag then .unknown (58 :: buf) else .unknown buf
  match x.word buf with
  | some w => if isTag then .tag w else .ident w
  | none =>
    match buf.head?, buf.getLast? with
    | some c, some l =>
      if isDigit c then
        match parseUsize (if 1 < multiplier l && 1 < buf.length then buf.dropLast else buf) with
        | some n => .number (min (n * multiplier l) (2 ^ 64 - 1))
        | none => unknown
      else unknown
    | _, _ => unknown

/-- `get_current_token`, `src/compiler/lexer/tokenizer.rs:82-129`: the token as a list of length at most 1. -/
def current (x : Ext W F) (s : St) : List (Token W F) :=
  if s.buf.isEmpty then [] else [wordToken x s.buf s.isTag]

/-- `reset_current_token`, `src/compiler/lexer/tokenizer.rs:132-135`. -/
def reset (s : St) : St := if s.buf.isEmpty then s else { s with buf := [], isTag := false }

/-- The token of a string, `src/compiler/lexer/tokenizer.rs:158-189`. -/
def stringToken (x : Ext W F) (buf : List UInt8) (t : StrType) : Token W F :=
  if t.maybeVariable then .stringVar buf
  else if !t.hasOther && t.hasDigits then
    if !t.hasDots then
      match x.parseInt buf with
      | some n => if x.showInt n = buf then .stringNumber (.int n) else .string buf
      | none => .string buf
    else
      match x.parseFlt buf with
      | some n => if x.showFlt n = buf then .stringNumber (.flt n) else .string buf
      | none => .string buf
  else .string buf

/-- What one round of the loop does: go on in a new state after skipping some more bytes, having
returned some tokens; or return an error.  For `getString`, `src/compiler/lexer/tokenizer.rs:156-205`. -/
inductive Out (W F : Type) where
  | go (s : St) (skip : Nat) (toks : List (Token W F))
  | fail (e : Err)

/-- `get_string`, `src/compiler/lexer/tokenizer.rs:156-205`, after which the state is `State::None`. -/
def getString (x : Ext W F) (s : St) (t : StrType) (skip : Nat) : Out W F :=
  if s.buf.length < x.maxString then .go { s with buf := [], mode := .none } skip [stringToken x s.buf t]
  else .fail .stringTooLong

/-- A token of a single character: `get_token`, `src/compiler/lexer/tokenizer.rs:142-154`. -/
def symbol (x : Ext W F) (s : St) (t : Token W F) : Out W F := .go (reset s) 0 (current x s ++ [t])

/-- `push_byte`.  For `stepNone`, `src/compiler/lexer/tokenizer.rs:338-428`. -/
def push (s : St) (c : UInt8) : St := { s with buf := s.buf ++ [c] }

/-- `State::None`, `src/compiler/lexer/tokenizer.rs:338-428`; `s.last` is already `ch`. -/
def stepNone (x : Ext W F) (s : St) (ch : UInt8) (rest : List UInt8) : Out W F :=
  if isLower ch || isDigit ch || ch = 95 || ch = 46 || ch = 36 then .go (push s ch) 0 []
  else if isUpper ch then .go (push s (ch + 32)) 0 []
  else if ch = 58 then -- ':'
    if s.buf.isEmpty && (match rest with | b :: _ => isLower b || isUpper b | [] => false) then
      .go { s with isTag := true } 0 []
    else if s.buf = [116, 101, 120, 116] then -- "text"
      match rest.dropWhile (· ≠ 10) with
      | [] => .go { s with mode := .multi {} } rest.length []
      | _ :: _ => .go { buf := [], isTag := false, last := 10, mode := .multi {} } ((rest.takeWhile (· ≠ 10)).length + 1) []
    else symbol x s .colon
  else if ch = 34 then .go { reset s with mode := .quoted {} } 0 (current x s) -- '"'
  else if ch = 123 then symbol x s .curlyOpen
  else if ch = 125 then symbol x s .curlyClose
  else if ch = 59 then symbol x s .semicolon
  else if ch = 44 then symbol x s .comma
  else if ch = 91 then symbol x s .bracketOpen
  else if ch = 93 then symbol x s .bracketClose
  else if ch = 40 then symbol x s .parenOpen
  else if ch = 41 then symbol x s .parenClose
  else if ch = 47 then -- '/'
    match rest with
    | 42 :: _ => .go { reset s with last := 0, mode := .bracket } 1 (current x s)
    | _ => .fail .invalidCharacter
  else if ch = 35 then .go { reset s with mode := .hash } 0 (current x s) -- '#'
  else if ch = 10 || ch = 32 || ch = 9 || ch = 13 then .go (reset s) 0 (current x s)
  else .fail .invalidCharacter

/-- The characters that `\n`, `\r` and `\t` stand for, `src/compiler/lexer/tokenizer.rs:482-491`. -/
def unescape (last ch : UInt8) : UInt8 :=
  if last = 92 then (if ch = 110 then 10 else if ch = 114 then 13 else if ch = 116 then 9 else ch) else ch

/-- `State::QuotedString`, `src/compiler/lexer/tokenizer.rs:444-498`. -/
def stepQuoted (x : Ext W F) (s : St) (last : UInt8) (t : StrType) (ch : UInt8) : Out W F :=
  if ch = 34 && last ≠ 92 then getString x s t 0
  else if ch = 10 then .go { push s 10 with mode := .quoted { t with hasOther := true } } 0 []
  else if ch = 123 && (last = 36 || last = 37) then
    .go { push s ch with mode := .quoted { t with maybeVariable := true } } 0 []
  else if ch = 92 then (if last = 92 then .go (push s ch) 0 [] else .go s 0 [])
  else if isDigit ch then .go { push s ch with mode := .quoted { t with hasDigits := true } } 0 []
  else if ch = 46 then
    .go { push s ch with mode := .quoted (if t.hasDots then { t with hasOther := true } else { t with hasDots := true }) } 0 []
  else
    .go { push s (unescape last ch) with
      mode := .quoted { t with hasOther := t.hasOther || unescape last ch ≠ 45 } } 0 []

/-- A dot at the beginning of a line, `src/compiler/lexer/tokenizer.rs:500-524`. -/
def stepDot (x : Ext W F) (s : St) (t : StrType) (rest : List UInt8) : Out W F :=
  match rest with
  | 13 :: 10 :: _ => getString x { s with last := 10 } t 2
  | 10 :: _ => getString x { s with last := 10 } t 1
  | 46 :: _ => .go { push s 46 with last := 46 } 1 []
  | c :: _ => .go { push (push s 46) c with last := c } 1 []
  | [] => .go s 0 []

/-- `State::MultiLine`, `src/compiler/lexer/tokenizer.rs:499-557`. -/
def stepMulti (x : Ext W F) (s : St) (last : UInt8) (t : StrType) (ch : UInt8) (rest : List UInt8) : Out W F :=
  if ch = 46 && last = 10 then stepDot x s t rest
  else if ch = 10 then .go (push s 10) 0 []
  else if ch = 123 && (last = 36 || last = 37) then
    .go { push s ch with mode := .multi { t with maybeVariable := true } } 0 []
  else if isDigit ch then .go { push s ch with mode := .multi { t with hasDigits := true } } 0 []
  else if ch = 46 then
    .go { push s ch with mode := .multi (if t.hasDots then { t with hasOther := true } else { t with hasDots := true }) } 0 []
  else .go { push s ch with mode := .multi { t with hasOther := t.hasOther || ch ≠ 45 } } 0 []

/-- One round of the loop in `next`, `src/compiler/lexer/tokenizer.rs:336-559`. -/
def step (x : Ext W F) (s : St) (ch : UInt8) (rest : List UInt8) : Out W F :=
  let s' := { s with last := ch }
  match s.mode with
  | .none => stepNone x s' ch rest
  | .bracket => .go (if ch = 47 && s.last = 42 then { s' with mode := .none } else s') 0 []
  | .hash => .go (if ch = 10 then { s' with mode := .none } else s') 0 []
  | .quoted t => stepQuoted x s' s.last t ch
  | .multi t => stepMulti x s' s.last t ch rest

/-- All tokens, and the error if there is one.  At the end of the script, `src/compiler/lexer/tokenizer.rs:561-570`, a word that has
been collected is dropped. -/
def lex (x : Ext W F) (s : St) (l : List UInt8) : List (Token W F) × Option Err :=
  match l with
  | [] =>
    match s.mode with
    | .bracket | .quoted _ | .multi _ => ([], some .unterminated)
    | _ => ([], none)
  | ch :: rest =>
    match step x s ch rest with
    | .fail e => ([], some e)
    | .go s' skip toks => (toks ++ (lex x s' (rest.drop skip)).1, (lex x s' (rest.drop skip)).2)
termination_by l.length
decreasing_by all_goals simp; omega

end Sieve.Lex
