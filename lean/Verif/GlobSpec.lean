/-
Specification of Sieve wildcard matching (RFC 5228 section 2.7.1, RFC 5229 section 3.2),
written without reference to the matcher.
-/
namespace Sieve.Glob

/-- `MatchesWith lit p v ts`: the pattern string `p` matches `v`, the wildcards of `p` (from
left to right) standing for the texts `ts`.  `lit c w` says that the piece `w` of the value is
an occurrence of the literal character `c`. A backslash at the very end of a pattern stands for
nothing. -/
inductive MatchesWith {α : Type} (lit : Char → List α → Prop) :
    List Char → List α → List (List α) → Prop
  | nil : MatchesWith lit [] [] []
  | star {p v ts} (w : List α) : MatchesWith lit p v ts → MatchesWith lit ('*' :: p) (w ++ v) (w :: ts)
  | quest {p v ts} (x : α) : MatchesWith lit p v ts → MatchesWith lit ('?' :: p) (x :: v) ([x] :: ts)
  | escaped {p v ts c w} : lit c w → MatchesWith lit p v ts →
      MatchesWith lit ('\\' :: c :: p) (w ++ v) ts
  | literal {p v ts c w} : c ≠ '*' → c ≠ '?' → c ≠ '\\' → lit c w → MatchesWith lit p v ts →
      MatchesWith lit (c :: p) (w ++ v) ts
  | dangling : MatchesWith lit ['\\'] [] []

/-- A literal stands for itself only (comparator `i;octet`). -/
def exactly (c : Char) (w : List Char) : Prop := w = [c]

/-- Number of wildcard characters of a pattern string. -/
def wildcardCount : List Char → Nat
  | [] => 0
  | '\\' :: cs => match cs with
    | [] => 0
    | _ :: cs => wildcardCount cs
  | c :: cs => (if c = '*' ∨ c = '?' then 1 else 0) + wildcardCount cs

/-- Lexicographic comparison of lists of lengths. -/
def lexLe : List Nat → List Nat → Prop
  | [], _ => True
  | _ :: _, [] => False
  | a :: as, b :: bs => a < b ∨ (a = b ∧ lexLe as bs)

/-- `(i, t₀), (i+1, t₁), …` restricted to the positions selected by the bit mask `cp`. -/
def numbered (cp : Nat) : Nat → List (List Char) → List (Nat × List Char)
  | _, [] => []
  | i, t :: ts => (if cp.testBit i then [(i, t)] else []) ++ numbered cp (i + 1) ts

end Sieve.Glob
