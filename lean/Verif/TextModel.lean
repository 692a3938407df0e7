/-
Strings as lists of characters: sizes, prefixes.
-/
namespace Sieve

/-- `String::len`: size in UTF-8 bytes.  See `runtime/actions/action_set.rs:29-40`. -/
def byteLen (s : List Char) : Nat := (s.map Char.utf8Size).sum

@[simp] theorem byteLen_nil : byteLen [] = 0 := rfl
@[simp] theorem byteLen_cons (c : Char) (s : List Char) :
    byteLen (c :: s) = c.utf8Size + byteLen s := by simp [byteLen]
@[simp] theorem byteLen_append (s t : List Char) :
    byteLen (s ++ t) = byteLen s + byteLen t := by simp [byteLen]

theorem utf8Size_pos (c : Char) : 0 < c.utf8Size := Char.utf8Size_pos c

/-- Specification: `r` is the longest prefix (in whole characters) of `s` whose size is at most
`max` bytes.  See `runtime/actions/action_set.rs:29-40`. -/
def LongestPrefix (max : Nat) (s r : List Char) : Prop :=
  r <+: s ∧ byteLen r ≤ max ∧ ∀ r', r' <+: s → byteLen r' ≤ max → r' <+: r

end Sieve
