import Verif.StringModel

/-!
# Strings: what they mean

The specification does not use the loop of the model.  A string is read from the left; where a token begins (a
variable reference, or an encoded character) it is replaced, otherwise the byte stands for itself.  Encoded characters
are replaced first, then variables (RFC 5228, 2.4.2.4 and RFC 5229, 3).
-/

namespace Sieve.Str

/-- Replacing tokens from the left.  `token w o` says that `w` is a token with the replacement `o` (`none`: an error).
-/
inductive Replaced {P : Type} (token : Bytes → Option (List P) → Prop) (keep : UInt8 → P) : Bytes → List P → Prop where
  | nil : Replaced token keep [] []
  | token {w p rest q} : token w (some p) → Replaced token keep rest q → Replaced token keep (w ++ rest) (p ++ q)
  | keep {c rest q} : (∀ w o r, token w o → c :: rest ≠ w ++ r) → Replaced token keep rest q →
      Replaced token keep (c :: rest) (keep c :: q)

/-- A piece of an expanded string: a byte of text, or the value of a variable. -/
inductive Piece (V : Type) where
  | byte (c : UInt8)
  | value (v : V)
deriving DecidableEq

/-- The name in a variable reference: letters, digits, `_ [ ] * - .`, and colons after the first dot. -/
structure IsName (n : Bytes) : Prop where
  nonempty : n ≠ []
  chars : ∀ c ∈ n, (97 ≤ c ∧ c ≤ 122) ∨ (65 ≤ c ∧ c ≤ 90) ∨ (48 ≤ c ∧ c ≤ 57) ∨ c ∈ ([95, 91, 93, 42, 45, 46, 58] : Bytes)
  colons : ∀ a b, n = a ++ 58 :: b → 46 ∈ a

variable {V F : Type}

/-- What the compiler knows about a name: a name of digits is a match variable, a name with a dot has a namespace. -/
noncomputable def Ext.resolve (x : Ext V F) (n : Bytes) : Look V :=
  open Classical in
  if ∀ c ∈ n, 48 ≤ c ∧ c ≤ 57 then x.numbered n else if 46 ∈ n then x.named true n else x.named false n

/-- Variable references: `${name}`.  With an unknown namespace or envelope part it is no reference. -/
def Reference (x : Ext V F) (w : Bytes) (o : Option (List (Piece V))) : Prop :=
  ∃ n, IsName n ∧ w = [36, 123] ++ n ++ [125] ∧
    match x.resolve n with
    | .var v => o = some [.value v]
    | .none => o = some []
    | .fail => o = none
    | .invalid => False

/-- `s` with its variable references replaced. -/
abbrev Expanded (x : Ext V F) : Bytes → List (Piece V) → Prop := Replaced (Reference x) .byte

/-- The number written with hexadecimal digits. -/
def numeral : Bytes → Nat
  | [] => 0
  | c :: w => (if c ≤ 57 then c.toNat - 48 else if c ≤ 70 then c.toNat - 55 else c.toNat - 87) * 16 ^ w.length + numeral w

/-- The hexadecimal numbers of an encoded character and the bytes they stand for; `code` gives the bytes of one number.
-/
inductive Numbers (code : Nat → Option Bytes) : Bytes → Bytes → Prop where
  | nil : Numbers code [] []
  | blank {c rest b} : c ∈ ([32, 9, 13, 10] : Bytes) → Numbers code rest b → Numbers code (c :: rest) b
  | number {w rest a b} : w ≠ [] → (∀ c ∈ w, (48 ≤ c ∧ c ≤ 57) ∨ (97 ≤ c ∧ c ≤ 102) ∨ (65 ≤ c ∧ c ≤ 70)) →
      (∀ c r, rest = c :: r → c ∈ ([32, 9, 13, 10] : Bytes)) → code (numeral w) = some a → Numbers code rest b →
      Numbers code (w ++ rest) (a ++ b)

/-- The byte with a number. -/
def byteCode (n : Nat) : Option Bytes := if n < 256 then some [UInt8.ofNat n] else none

/-- `hex` and `unicode`, in any case -/
inductive Keyword : Bytes → (Nat → Option Bytes) → Prop where
  | hex {k} : k.map lowerByte = [104, 101, 120] → Keyword k byteCode
  | unicode {k} : k.map lowerByte = [117, 110, 105, 99, 111, 100, 101] → Keyword k utf8

/-- Encoded characters: `${hex: ...}` and `${unicode: ...}` with at least one number. -/
def EncodedChar (w : Bytes) (o : Option Bytes) : Prop :=
  ∃ k code body b, Keyword k code ∧ Numbers code body b ∧ b ≠ [] ∧ w = [36, 123] ++ k ++ 58 :: body ++ [125] ∧ o = some b

/-- `s` with its encoded characters replaced. -/
abbrev Decoded : Bytes → Bytes → Prop := Replaced EncodedChar id

/-- The pieces of a compiled string. -/
def Item.pieces (x : Ext V F) : Item V F → List (Piece V)
  | .text t => t.map .byte
  | .int n => (x.showInt n).map .byte
  | .flt f => (x.showFlt f).map .byte
  | .var v => [.value v]

def pieces (x : Ext V F) (items : List (Item V F)) : List (Piece V) := items.flatMap (Item.pieces x)

/-- The text of a list of pieces when the variables have the values `σ`. -/
def textOf (σ : V → Bytes) : List (Piece V) → Bytes
  | [] => []
  | .byte c :: l => c :: textOf σ l
  | .value v :: l => σ v ++ textOf σ l

end Sieve.Str
