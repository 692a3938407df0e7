import Verif.LexModel

/-!
# Places of tokens and errors

Model of the line numbers and columns that `Tokenizer` (`src/compiler/lexer/tokenizer.rs`) keeps and puts into tokens
and errors.  `Lex.step` says what the tokens are; here is what happens to `pos`, `line_num`, `line_start`,
`text_line_num`, `text_line_pos`, `token_line_num` and `token_line_pos` in the same branches.

`pos` is the index of the byte that was read last; it starts at `usize::MAX` and wraps to 0 with the first byte.  Here
`pos` is the index of the byte of the current round.
-/

namespace Sieve.Lex
variable {W F : Type}

/-- Line and column.  For `Pos`, `src/compiler/lexer/tokenizer.rs:23-31`. -/
abbrev Place := Nat × Nat

/-- The fields of `Tokenizer` with places, `src/compiler/lexer/tokenizer.rs:23-31`. -/
structure Pos where
  pos : Nat := 0
  line : Nat := 1
  start : Nat := 0
  text : Place := (0, 0)
  token : Place := (0, 0)

/-- `(line_num, pos - line_start)`, as in `src/compiler/lexer/tokenizer.rs:145-146, 309-315`. -/
def Pos.here (p : Pos) : Place := (p.line, p.pos - p.start)

/-- `new_line`, `src/compiler/lexer/tokenizer.rs:217-220`. -/
def Pos.newLine (p : Pos) : Pos := { p with line := p.line + 1, start := p.pos }

/-- `text_start`, `src/compiler/lexer/tokenizer.rs:223-226`. -/
def Pos.textStart (p : Pos) : Pos := { p with text := p.here }

/-- `next_byte`, `src/compiler/lexer/tokenizer.rs:239-246`, `n` times. -/
def Pos.skip (p : Pos) (n : Nat) : Pos := { p with pos := p.pos + n }

/-- `push_byte`, `src/compiler/lexer/tokenizer.rs:208-214`: the place of a word is that of its first byte. -/
def Pos.push (p : Pos) (buf : List UInt8) : Pos := if buf.isEmpty then { p with token := p.here } else p

/-- The place of the token of `get_current_token`, `src/compiler/lexer/tokenizer.rs:82-129`: one to the left for a known tag.  (The
field `token_line_pos` changes, too, but is set again before it is read again.) -/
def currentAt (x : Ext W F) (s : St) (p : Pos) : List Place :=
  if s.buf.isEmpty then []
  else if (x.word s.buf).isSome && s.isTag then [(p.token.1, p.token.2 - 1)]
  else [p.token]

/-- What happens to the places in a round: the new places, those of the tokens, and that of the error if there is
one.  For `symbolAt`, `src/compiler/lexer/tokenizer.rs:142-154`. -/
structure Moved where
  pos : Pos
  places : List Place
  error : Place := (0, 0)

/-- `get_token`, `src/compiler/lexer/tokenizer.rs:142-154`. -/
def symbolAt (x : Ext W F) (s : St) (p : Pos) : Moved := { pos := p, places := currentAt x s p ++ [p.here] }

/-- `State::None`, `src/compiler/lexer/tokenizer.rs:338-428`. -/
def moveNone (x : Ext W F) (s : St) (p : Pos) (ch : UInt8) (rest : List UInt8) : Moved :=
  if isLower ch || isDigit ch || ch = 95 || ch = 46 || ch = 36 then { pos := p.push s.buf, places := [] }
  else if isUpper ch then { pos := p.push s.buf, places := [] }
  else if ch = 58 then -- ':'
    if s.buf.isEmpty && (match rest with | b :: _ => isLower b || isUpper b | [] => false) then { pos := p, places := [] }
    else if s.buf = [116, 101, 120, 116] then -- "text"
      match rest.dropWhile (· ≠ 10) with
      | [] => { pos := p.textStart.skip rest.length, places := [] }
      | _ :: _ => { pos := (p.textStart.skip ((rest.takeWhile (· ≠ 10)).length + 1)).newLine, places := [] }
    else symbolAt x s p
  else if ch = 34 then { pos := p.textStart, places := currentAt x s p } -- '"'
  else if ch = 123 then symbolAt x s p
  else if ch = 125 then symbolAt x s p
  else if ch = 59 then symbolAt x s p
  else if ch = 44 then symbolAt x s p
  else if ch = 91 then symbolAt x s p
  else if ch = 93 then symbolAt x s p
  else if ch = 40 then symbolAt x s p
  else if ch = 41 then symbolAt x s p
  else if ch = 47 then -- '/'
    match rest with
    | 42 :: _ => { pos := (p.skip 1).textStart, places := currentAt x s p }
    | _ :: _ => { pos := p, places := [], error := (p.skip 1).here }
    | [] => { pos := p, places := [], error := p.here }
  else if ch = 35 then { pos := p, places := currentAt x s p } -- '#'
  else if ch = 10 then { pos := p.newLine, places := currentAt x s p }
  else if ch = 32 || ch = 9 || ch = 13 then { pos := p, places := currentAt x s p }
  else { pos := p, places := [], error := p.here }

/-- `State::QuotedString`, `src/compiler/lexer/tokenizer.rs:444-498`, with `get_string`, `src/compiler/lexer/tokenizer.rs:191-204`. -/
def moveQuoted (s : St) (p : Pos) (ch : UInt8) : Moved :=
  if ch = 34 && s.last ≠ 92 then { pos := p, places := [p.text], error := p.text }
  else if ch = 10 then { pos := p.newLine.push s.buf, places := [] }
  else if ch = 92 && s.last ≠ 92 then { pos := p, places := [] }
  else { pos := p.push s.buf, places := [] }

/-- A dot at the beginning of a line, `src/compiler/lexer/tokenizer.rs:500-524`. -/
def moveDot (s : St) (p : Pos) (rest : List UInt8) : Moved :=
  match rest with
  | 13 :: 10 :: _ => { pos := (p.skip 2).newLine, places := [p.text], error := p.text }
  | 10 :: _ => { pos := (p.skip 1).newLine, places := [p.text], error := p.text }
  | _ :: _ => { pos := (p.skip 1).push s.buf, places := [] }
  | [] => { pos := p, places := [] }

/-- `State::MultiLine`, `src/compiler/lexer/tokenizer.rs:499-557`. -/
def moveMulti (s : St) (p : Pos) (ch : UInt8) (rest : List UInt8) : Moved :=
  if ch = 46 && s.last = 10 then moveDot s p rest
  else if ch = 10 then { pos := p.newLine.push s.buf, places := [] }
  else { pos := p.push s.buf, places := [] }

/-- One round of the loop in `next`, `src/compiler/lexer/tokenizer.rs:336-559`. -/
def move (x : Ext W F) (s : St) (p : Pos) (ch : UInt8) (rest : List UInt8) : Moved :=
  match s.mode with
  | .none => moveNone x s p ch rest
  | .bracket => { pos := if ch = 47 && s.last = 42 then p else if ch = 10 then p.newLine else p, places := [] }
  | .hash => { pos := if ch = 10 then p.newLine else p, places := [] }
  | .quoted _ => moveQuoted s p ch
  | .multi _ => moveMulti s p ch rest

/-- A token with its place, `TokenInfo`, `src/compiler/lexer/tokenizer.rs:39-44`. -/
structure Info (W F : Type) where
  token : Token W F
  place : Place

/-- All tokens with their places, and the error with its place if there is one; an error at the end of the script has the
place where the string or comment begins, `src/compiler/lexer/tokenizer.rs:561-570`.  Last comes the place of an unexpected end,
`unwrap_next`, `src/compiler/lexer/tokenizer.rs:253-263`; `pos` is `usize::MAX` there if nothing was read. -/
def lexAt (x : Ext W F) (s : St) (p : Pos) (l : List UInt8) : List (Info W F) × Option (Err × Place) × Place :=
  match l with
  | [] =>
    match s.mode with
    | .bracket | .quoted _ | .multi _ => ([], some (.unterminated, p.text), p.here)
    | _ => ([], none, (p.line, (if p.pos = 0 then 2 ^ 64 - 1 else p.pos - 1) - p.start))
  | ch :: rest =>
    match step x s ch rest with
    | .fail e => ([], some (e, (move x s p ch rest).error), p.here)
    | .go s' skip toks =>
      let m := move x s p ch rest
      let r := lexAt x s' (m.pos.skip 1) (rest.drop skip)
      (toks.zipWith Info.mk m.places ++ r.1, r.2)
termination_by l.length
decreasing_by simp; omega

end Sieve.Lex
