import Verif.ScriptModel
import Verif.ArgsSpec

/-!
# Whole scripts: what the language says

Which extensions are declared at a place of a script, and which sequences of tokens are scripts, written without the
state of `ScriptModel`: what is declared is read off the nodes before a place.
-/

namespace Sieve.Script

open Sieve.Args

variable {F : Type}

/-- The number of blocks that begin and end among some nodes. -/
def opens (ns : List (Node F)) : Nat := ns.countP fun | .openB => true | _ => false
def closes (ns : List (Node F)) : Nat := ns.countP fun | .closeB => true | _ => false

/-- A block that is open before these nodes is open at each place of them. -/
def StaysOpen (ns : List (Node F)) : Prop := ∀ a b, ns = a ++ b → closes a ≤ opens a

/-- A list of names declares the extension `c`.  RFC 5235: `spamtestplus` brings `spamtest` with it. -/
def Names (names : List (List UInt8)) (c : Cap) : Prop :=
  ∃ n ∈ names, parseCap n = c ∨ (parseCap n = .SpamTestPlus ∧ c = .SpamTest)

/-- The extension `c` is declared after these nodes: a `require` before names it, in a block that is still open.  Without
capability check everything but `ihave` counts as declared. -/
def Declared (x : Ext F) (pre : List (Node F)) (c : Cap) : Prop :=
  (x.noCheck = true ∧ c ≠ .Ihave) ∨
    ∃ before names after, pre = before ++ .require names :: after ∧ Names names c ∧ StaysOpen after

open Classical in
/-- The same as a function. -/
noncomputable def declared (x : Ext F) (pre : List (Node F)) : Cap → Bool := fun c => decide (Declared x pre c)

/-- The arguments of `require`: a constant string, or a list of them separated by commas. -/
inductive IsRequire (x : Ext F) : List (Tok F) → List (List UInt8) → Prop where
  | one {t s} : IsConst x t s → IsRequire x [t] [s]
  | list {t s ts ss} : IsConst x t s → List.Forall₂ (fun u n => ∃ c, u = [.comma, c] ∧ IsConst x c n) ts ss →
      IsRequire x (.bracketOpen :: t :: ts.flatten ++ [.bracketClose]) (s :: ss)

/-- `:name "label"`, or nothing. -/
inductive IsLabel (x : Ext F) : List (Tok F) → List (Tok F) → Option (List UInt8) → Prop where
  | none {r} : (∀ r', r ≠ .tag .Name :: r') → IsLabel x [] r none
  | some {u r s} : IsStatic x u s → IsLabel x (.tag .Name :: u) r (some s)

/-- Neither a brace nor a semicolon. -/
def Flat (u : List (Tok F)) : Prop := .curlyOpen ∉ u ∧ .curlyClose ∉ u ∧ .semicolon ∉ u

/-- Braces in pairs. -/
inductive Balanced : List (Tok F) → Prop where
  | nil : Balanced []
  | tok {t u} : t ≠ .curlyOpen → t ≠ .curlyClose → Balanced u → Balanced (t :: u)
  | block {u v} : Balanced u → Balanced v → Balanced (.curlyOpen :: u ++ .curlyClose :: v)

/-- The rest of an unknown command (RFC 5228, 8.2): arguments and a semicolon, or arguments and a block. -/
inductive IsRest : List (Tok F) → Prop where
  | semicolon {u} : Flat u → IsRest (u ++ [.semicolon])
  | block {u b} : Flat u → Balanced b → IsRest (u ++ .curlyOpen :: b ++ [.curlyClose])

/-- Parentheses of some tokens. -/
def popens (u : List (Tok F)) : Nat := u.countP fun | .parenOpen => true | _ => false
def pcloses (u : List (Tok F)) : Nat := u.countP fun | .parenClose => true | _ => false

/-- The rest of an unknown test, as the code delimits it: up to the first brace, or the first comma or closing parenthesis
that is not within its own parentheses, whichever comes first. -/
structure IsTestRest (u r : List (Tok F)) : Prop where
  brace : .curlyOpen ∉ u
  inside : ∀ a b, u = a ++ b → pcloses a ≤ popens a
  comma : ∀ a b, u = a ++ .comma :: b → pcloses a < popens a
  stop : r = [] ∨ (∃ r', r = .curlyOpen :: r') ∨
    (pcloses u = popens u ∧ ∃ r', r = .parenClose :: r' ∨ r = .comma :: r')

/-- The words that are commands with a syntax of their own. -/
def special : List Word := [.Require, .If, .ElsIf, .Else, .ForEveryPart, .Break, .While, .Continue, .Return]

/-- The words of the structure of tests. -/
def structural : List Word := [.Not, .AnyOf, .AllOf, .True, .False]

/-- A piece of a script outside of a test: its tokens, what follows, its nodes, and whether a test follows.  `has` are the
extensions that are declared. -/
inductive Piece (x : Ext F) (has : Cap → Bool) : List (Tok F) → List (Tok F) → List (Node F) → Bool → Prop where
  | require {u r ns} : IsRequire x u ns → Piece x has (.ident .Require :: u ++ [.semicolon]) r [.require ns] false
  | «if» {r} : Piece x has [.ident .If] r [.word .If] true
  | elsif {r} : Piece x has [.ident .ElsIf] r [.word .ElsIf] true
  | «else» {r} : Piece x has [.ident .Else, .curlyOpen] r [.word .Else, .openB] false
  | foreverypart {u r l} : has .ForEveryPart = true → IsLabel x u (.curlyOpen :: r) l →
      Piece x has (.ident .ForEveryPart :: u ++ [.curlyOpen]) r [.foreverypart l, .openB] false
  | brk {r} : Piece x has [.ident .Break, .semicolon] r [.brk none] false
  | brkName {u r l} : has .ForEveryPart = true → IsStatic x u l →
      Piece x has (.ident .Break :: .tag .Name :: u ++ [.semicolon]) r [.brk (some l)] false
  | loop {t e r} : has .While = true → PosIs x has .expr [t] (.text e) →
      Piece x has [.ident .While, t, .curlyOpen] r [.loop e, .openB] false
  | continue {r} : has .While = true → Piece x has [.ident .Continue, .semicolon] r [.word .Continue] false
  | return {r} : has .Include = true → Piece x has [.ident .Return, .semicolon] r [.word .Return] false
  | cmd {w e u r g} : commandEntry w = some e → (∀ c ∈ e.caps, has c = true) → Reads x has w e.shape u (.semicolon :: r) g →
      Piece x has (.ident w :: u ++ [.semicolon]) r [.cmd w g] false
  | skipWord {w u r} : w ∉ special → commandEntry w = none → has .Ihave = true → IsRest u →
      Piece x has (.ident w :: u) r [.skip (.ident w)] false
  | skip {n u r} : has .Ihave = true → IsRest u → Piece x has (.unknown n :: u) r [.skip (.unknown n)] false
  | close {r} : Piece x has [.curlyClose] r [.closeB] false

/-- A piece of a test. -/
inductive TestPiece (x : Ext F) (has : Cap → Bool) : List (Tok F) → List (Tok F) → List (Node F) → Bool → Prop where
  | «open» {r} : TestPiece x has [.curlyOpen] r [.openB] false
  | comma {r} : TestPiece x has [.comma] r [.comma] true
  | popen {r} : TestPiece x has [.parenOpen] r [.popen] true
  | pclose {r} : TestPiece x has [.parenClose] r [.pclose] true
  | word {w r} : w ∈ structural → TestPiece x has [.ident w] r [.word w] true
  | test {w e u r g} : testEntry w = some e → (∀ c ∈ e.caps, has c = true) → Reads x has w e.shape u r g →
      TestPiece x has (.ident w :: u) r [.test w g] true
  | badWord {w u r} : w ∉ structural → testEntry w = none → IsTestRest u r →
      TestPiece x has (.ident w :: u) r [.bad (.ident w)] true
  | bad {n u r} : IsTestRest u r → TestPiece x has (.unknown n :: u) r [.bad (.unknown n)] true

/-- `include` -/
def isInclude : Node F → Bool
  | .cmd .Include _ => true
  | _ => false

/-- Scripts: `pre` are the nodes before, the flag says whether a test is being read. -/
inductive IsScript (x : Ext F) : List (Node F) → Bool → List (Tok F) → List (Node F) → Prop where
  | nil {pre} : opens pre = closes pre → IsScript x pre false [] []
  | piece {pre u r ns t rest} : Piece x (declared x pre) u r ns t →
      (ns = [.closeB] → closes pre < opens pre) →
      (ns.any isInclude = true → pre.countP isInclude < x.maxIncludes) →
      IsScript x (pre ++ ns) t r rest → IsScript x pre false (u ++ r) (ns ++ rest)
  | test {pre u r ns t rest} : TestPiece x (declared x pre) u r ns t →
      IsScript x (pre ++ ns) t r rest → IsScript x pre true (u ++ r) (ns ++ rest)

end Sieve.Script
