import Verif.ExprSpec

/-!
# Expressions: from text to tokens

Model of `src/compiler/grammar/expr/tokenizer.rs` (`Tokenizer::next`, `parse_buf`).  `next` is called by the parser until
there are no more tokens; here all tokens are collected.  (The parser never panics and its errors are not distinguished, so
that it does not matter that it could give up before the tokenizer does.)

What is abstracted: `token_map` (names of variables and functions), `f64::from_str` and `String::from_utf8` are parameters.
-/

namespace Sieve.Expr

abbrev Bytes := List UInt8

def ascii (s : String) : Bytes := s.toList.map fun c => c.toNat.toUInt8

/-- `token_map` (a variable or a function with its number of arguments), the constants, `buf.parse::<f64>()` and
`String::from_utf8`. -/
structure Map (X K : Type) where
  name : Bytes → Bool → Option (X ⊕ (Nat × Nat))
  int : Nat → K
  float : Bytes → Option K
  str : Bytes → Option K

/-- The fields of `Tokenizer`, `src/compiler/grammar/expr/tokenizer.rs:16-30`, but for those that only pass tokens on. -/
structure Lex where
  buf : Bytes
  depth : Nat
  hasNumber : Bool
  hasDot : Bool
  hasAlpha : Bool
  start : Bool

/-- `src/compiler/grammar/expr/tokenizer.rs:42-55` -/
def Lex.init : Lex := ⟨[], 0, false, false, false, true⟩

def isLetter (c : UInt8) : Bool := (65 ≤ c && c ≤ 90) || (97 ≤ c && c ≤ 122) || c = 95
def isDigit (c : UInt8) : Bool := 48 ≤ c && c ≤ 57

/-- The arms that extend the current word, `src/compiler/grammar/expr/tokenizer.rs:66-98`. -/
def push (s : Lex) (c : UInt8) : Option Lex :=
  if isLetter c then some { s with buf := s.buf ++ [c], hasAlpha := true }
  else if isDigit c then some { s with buf := s.buf ++ [c], hasNumber := true }
  else if c = 46 then some { s with buf := s.buf ++ [c], hasDot := true }
  else if c = 91 ∧ s.buf.take 7 = ascii "header." then some { s with buf := s.buf ++ [c] }
  else if c = 45 ∧ (s.buf.getLast? = some 91 ∨ s.buf.take 7 = ascii "header.") then some { s with buf := s.buf ++ [c] }
  else if c = 58 ∧ 46 ∈ s.buf then some { s with buf := s.buf ++ [c] }
  else if c = 93 ∧ 91 ∈ s.buf then some { s with buf := s.buf ++ [c] }
  else if c = 42 ∧ (s.buf.getLast? = some 91 ∨ s.buf.getLast? = some 46) then some { s with buf := s.buf ++ [c] }
  else none

/-- `buf.parse::<i64>()` for the words that get there, which are digits only. -/
def parseInt (b : Bytes) : Option Nat :=
  let n := b.foldl (fun n c => n * 10 + (c.toNat - 48)) 0
  if n < 2 ^ 63 then some n else none

/-- `parse_buf`, `src/compiler/grammar/expr/tokenizer.rs:251-284` -/
def parseBuf (m : Map X K) (s : Lex) : Option (Tok X K × Lex) :=
  if s.hasNumber = true ∧ s.hasAlpha = false then
    if s.hasDot then (m.float s.buf).map fun k => (.lit k, { s with buf := [], hasNumber := false, hasDot := false })
    else (parseInt s.buf).map fun n => (.lit (m.int n), { s with buf := [], hasNumber := false })
  else
    let s' := { s with buf := [], hasAlpha := false, hasNumber := false, hasDot := false }
    if s.hasNumber = false ∧ s.hasDot = false ∧ s.buf = ascii "true" then some (.lit (m.int 1), s')
    else if s.hasNumber = false ∧ s.hasDot = false ∧ s.buf = ascii "false" then some (.lit (m.int 0), s')
    else
      (m.name s.buf s.hasDot).map fun r => (match r with | .inl x => .var x | .inr (id, n) => .func id n, s')

/-- The text of a string constant and what follows it, `src/compiler/grammar/expr/tokenizer.rs:173-206`. -/
def scanString (stop last : UInt8) (buf : Bytes) : Bytes → Option (Bytes × Bytes)
  | [] => none
  | c :: rest =>
    if last ≠ 92 then
      if c ≠ stop then scanString stop c (buf ++ [c]) rest else some (buf, rest)
    else scanString stop c (buf ++ [if c = 110 then 10 else if c = 114 then 13 else if c = 116 then 9 else c]) rest

/-- The token that starts with the byte `c`, and what follows it, `src/compiler/grammar/expr/tokenizer.rs:106-222`. -/
def symbol (m : Map X K) (start : Bool) (c : UInt8) (rest : Bytes) : Option (Tok X K × Bytes) :=
  if c = 38 then some (.bin .and, if rest.head? = some 38 then rest.tail else rest)
  else if c = 124 then some (.bin .or, if rest.head? = some 124 then rest.tail else rest)
  else if c = 33 then if rest.head? = some 61 then some (.bin .ne, rest.tail) else some (.un .not, rest)
  else if c = 94 then some (.bin .xor, rest)
  else if c = 40 then some (.popen, rest)
  else if c = 41 then some (.pclose, rest)
  else if c = 43 then some (.bin .add, rest)
  else if c = 42 then some (.bin .mul, rest)
  else if c = 47 then some (.bin .div, rest)
  else if c = 45 then some (if start then .un .minus else .bin .sub, rest)
  else if c = 61 then
    some (if rest.head? = some 61 then .bin .eq else if rest.head? = some 62 then .bin .ge
      else if rest.head? = some 60 then .bin .le else .bin .eq, rest.tail)
  else if c = 62 then if rest.head? = some 61 then some (.bin .ge, rest.tail) else some (.bin .gt, rest)
  else if c = 60 then if rest.head? = some 61 then some (.bin .le, rest.tail) else some (.bin .lt, rest)
  else if c = 44 then some (.comma, rest)
  else if c = 91 then some (.bopen, rest)
  else if c = 93 then some (.bclose, rest)
  else if c = 34 ∨ c = 39 then
    (scanString c 0 [] rest).bind fun r => (m.str r.1).map fun k => (.lit k, r.2)
  else none

/-- The depth of parentheses, `src/compiler/grammar/expr/tokenizer.rs:127-137`. -/
def paren (depth : Nat) : Tok X K → Option Nat
  | .popen => some (depth + 1)
  | .pclose => if depth = 0 then none else some (depth - 1)
  | _ => some depth

/-- `src/compiler/grammar/expr/tokenizer.rs:224-227` -/
def opens : Tok X K → Bool
  | .popen | .comma | .bin _ => true
  | _ => false

/-- The word before another token, `src/compiler/grammar/expr/tokenizer.rs:100-105`. -/
def word (m : Map X K) (s : Lex) : Option (List (Tok X K) × Lex) :=
  if s.buf = [] then some ([], s) else (parseBuf m { s with start := false }).map fun r => ([r.1], r.2)

/-- The end of the text or a closing brace, `src/compiler/grammar/expr/tokenizer.rs:239-245`. -/
def finish (m : Map X K) (s : Lex) : Option (List (Tok X K)) :=
  if s.depth > 0 then none
  else if s.buf ≠ [] then (parseBuf m s).map fun r => [r.1]
  else some []

/-- `Tokenizer::next`, `src/compiler/grammar/expr/tokenizer.rs:58-245`, until there are no more tokens.  `none` is an error.  The first argument bounds
the number of steps. -/
def tokens (m : Map X K) : Nat → Lex → Bytes → Option (List (Tok X K))
  | 0, _, _ => none
  | _ + 1, s, [] => finish m s
  | n + 1, s, c :: rest =>
    match push s c with
    | some s => tokens m n s rest
    | none =>
      if c = 125 then finish m s
      else
        (word m s).bind fun r =>
          if c = 32 ∨ c = 13 ∨ c = 10 then (tokens m n r.2 rest).map (r.1 ++ ·)
          else
            (symbol m r.2.start c rest).bind fun t =>
              (paren r.2.depth t.1).bind fun d =>
                (tokens m n { r.2 with depth := d, start := opens t.1 } t.2).map (r.1 ++ t.1 :: ·)

def tokenize (m : Map X K) (text : Bytes) : Option (List (Tok X K)) := tokens m (text.length + 1) Lex.init text

/-- `parse_expr`, `src/compiler/grammar/test.rs:566-592`: the code of an expression given as text. -/
def compileText (m : Map X K) (text : Bytes) : Res (List (Code X K)) :=
  match tokenize m text with
  | some ts => parse ts
  | none => .err

/-! ## Specification -/

/-- The byte `c` is part of the word that begins with `w`: letters, digits, underscores and dots always; after `header.` also
hyphens and opening brackets; after an opening bracket `-`, `*` and closing brackets; after a dot `*` (directly) and colons. -/
def Continues (w : Bytes) (c : UInt8) : Prop :=
  isLetter c = true ∨ isDigit c = true ∨ c = 46
  ∨ (ascii "header." <+: w ∧ (c = 91 ∨ c = 45))
  ∨ (w.getLast? = some 91 ∧ (c = 45 ∨ c = 42)) ∨ (w.getLast? = some 46 ∧ c = 42)
  ∨ (91 ∈ w ∧ c = 93) ∨ (46 ∈ w ∧ c = 58)

/-- Each byte continues what is before it. -/
def IsWord (w : Bytes) : Prop := w ≠ [] ∧ ∀ a c b, w = a ++ c :: b → Continues a c

/-- What a word means: digits are a number, with a dot one that need not be whole; `true` and `false` are 1 and 0; others
are names. -/
def meaning (m : Map X K) (w : Bytes) : Option (Tok X K) :=
  if w.any isDigit = true ∧ w.any isLetter = false then
    if 46 ∈ w then (m.float w).map .lit else (parseInt w).map fun n => .lit (m.int n)
  else if w = ascii "true" then some (.lit (m.int 1))
  else if w = ascii "false" then some (.lit (m.int 0))
  else (m.name w (decide (46 ∈ w))).map fun r => match r with | .inl x => .var x | .inr (id, n) => .func id n

/-- How operators are written, and what must not follow directly. -/
def signs : List (String × Tok X K × List UInt8) :=
  [("&&", .bin .and, []), ("&", .bin .and, [38]), ("||", .bin .or, []), ("|", .bin .or, [124]), ("^", .bin .xor, []),
   ("!", .un .not, [61]), ("-", .un .minus, []), ("+", .bin .add, []), ("-", .bin .sub, []), ("*", .bin .mul, []), ("/", .bin .div, []),
   ("==", .bin .eq, []), ("!=", .bin .ne, []), ("<", .bin .lt, [61]), (">", .bin .gt, [61]),
   ("<=", .bin .le, []), ("=<", .bin .le, []), (">=", .bin .ge, []), ("=>", .bin .ge, []),
   ("(", .popen, []), (")", .pclose, []), ("[", .bopen, []), ("]", .bclose, []), (",", .comma, [])]

/-- The text between quotes.  If `odd`, with what the code makes of backslashes: they are kept, the next byte is part of the
text (`n`, `r` and `t` as line feed, carriage return and tab), and if it is a backslash so is the one after it. -/
inductive Inside (odd : Bool) (stop : UInt8) : UInt8 → Bytes → Bytes → Prop
  | nil {last} : last ≠ 92 → Inside odd stop last [] []
  | plain {last c t s} : last ≠ 92 → c ≠ stop → (odd = false → c ≠ 92) → Inside odd stop c t s → Inside odd stop last (c :: t) (c :: s)
  | escaped {c t s} : Inside odd stop c t s →
      Inside odd stop 92 (c :: t) ((if c = 110 then 10 else if c = 114 then 13 else if c = 116 then 9 else c) :: s)

/-- `Spelled odd text ts`: the text is written with the tokens `ts`, with blanks anywhere between them.  If `odd`, some more texts
are included: a closing brace with anything after it, `=` with any byte after it, and strings with backslashes. -/
inductive Spelled (m : Map X K) (odd : Bool) : Bytes → List (Tok X K) → Prop
  | nil : Spelled m odd [] []
  | blank {c t ts} : c = 32 ∨ c = 13 ∨ c = 10 → Spelled m odd t ts → Spelled m odd (c :: t) ts
  | word {w t k ts} : IsWord w → (∀ c, t.head? = some c → ¬ Continues w c) → meaning m w = some k → Spelled m odd t ts →
      Spelled m odd (w ++ t) (k :: ts)
  | sign {l k no t ts} : (l, k, no) ∈ signs → (∀ c, t.head? = some c → c ∉ no) → Spelled m odd t ts → Spelled m odd (ascii l ++ t) (k :: ts)
  | equals {t ts} : (∀ c, t.head? = some c → c = 32 ∨ c = 13 ∨ c = 10) → Spelled m odd t ts → Spelled m odd (61 :: t) (.bin .eq :: ts)
  | str {stop s b t k ts} : stop = 34 ∨ stop = 39 → Inside odd stop 0 s b → m.str b = some k → Spelled m odd t ts →
      Spelled m odd (stop :: (s ++ stop :: t)) (.lit k :: ts)
  | swallow {c t ts} : odd = true → c ≠ 61 → c ≠ 62 → c ≠ 60 → Spelled m odd t ts → Spelled m odd (61 :: c :: t) (.bin .eq :: ts)
  | brace {t} : odd = true → Spelled m odd (125 :: t) []

/-- Closing parentheses have an opening one before them, and in the end all are closed. -/
def Balanced : Nat → List (Tok X K) → Prop
  | d, [] => d = 0
  | d, .popen :: ts => Balanced (d + 1) ts
  | d, .pclose :: ts => d ≠ 0 ∧ Balanced (d - 1) ts
  | d, _ :: ts => Balanced d ts

/-- A minus sign is the unary one exactly if `start`, that is, at the start and after a token in `after`. -/
def Signed (after : Tok X K → Bool) : Bool → List (Tok X K) → Prop
  | _, [] => True
  | start, t :: ts => (t = .un .minus → start = true) ∧ (t = .bin .sub → start = false) ∧ Signed after (after t) ts

/-- Operators, opening parentheses and commas, but neither unary operators nor opening brackets. -/
def afterRead : Tok X K → Bool
  | .bin _ | .popen | .comma => true
  | _ => false

/-- All tokens that an operand follows. -/
def afterMeant : Tok X K → Bool
  | .bin _ | .un _ | .popen | .bopen | .comma => true
  | _ => false

end Sieve.Expr
