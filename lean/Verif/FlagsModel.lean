import Verif.SetModel
/-
Model of `runtime/actions/action_flags.rs`.  The content of the flag variable is its text
(`Variable::to_string`); `lower` is `str::to_lowercase`, `ws` is `char::is_whitespace` (used by
`str::trim`).
-/
namespace Sieve.Flags
open Sieve.SetVar

/-- `str::split(' ')`: always yields at least one piece.  For `addFlags`, `src/runtime/actions/action_flags.rs:39-62`. -/
def splitSp : List Char → List (List Char)
  | [] => [[]]
  | c :: cs =>
    if c = ' ' then [] :: splitSp cs
    else match splitSp cs with
      | [] => [[c]]
      | p :: ps => (c :: p) :: ps

/-- `[&str]::join(" ")`.  For `removeFlags`, `src/runtime/actions/action_flags.rs:63-84`. -/
def joinSp : List (List Char) → List Char
  | [] => []
  | [p] => p
  | p :: ps => p ++ ' ' :: joinSp ps

/-- `char::is_ascii_whitespace`.  For `tokens`, `src/runtime/actions/action_flags.rs:90-113`. -/
def asciiWs (c : Char) : Bool := c = ' ' || c = '\t' || c = '\n' || c = '\r' || c = Char.ofNat 12

/-- `str::split_ascii_whitespace` (`cur` is the current word): non-empty words.  For `tokens`, `src/runtime/actions/action_flags.rs:90-113`. -/
def splitWs : List Char → List Char → List (List Char)
  | cur, [] => if cur = [] then [] else [cur]
  | cur, c :: cs =>
    if asciiWs c then (if cur = [] then splitWs [] cs else cur :: splitWs [] cs)
    else splitWs (cur ++ [c]) cs

/-- `str::trim`.  For `tokens`, `src/runtime/actions/action_flags.rs:90-113`. -/
def trim (ws : Char → Bool) (s : List Char) : List Char :=
  ((s.dropWhile ws).reverse.dropWhile ws).reverse

/-- src/runtime/actions/action_flags.rs:90-113 `tokenize_flags`: the flags passed to the callback (which never asks to
stop when called from the flag actions). -/
def tokens (ws : Char → Bool) (strings : List (List Char)) : List (List Char) :=
  match strings with
  | [s] => if s = [] then [] else splitWs [] s
  | _ => (strings.filter (· ≠ [])).map (trim ws)

/-- src/runtime/actions/action_flags.rs:27-35 / 51-59: the callback of `Action::Set` and `Action::Add`; the state is
(flags text, lower-cased flags). -/
def addTok (lower : List Char → List Char) (st : List Char × List (List Char)) (flag : List Char) :
    List Char × List (List Char) :=
  if lower flag ∈ st.2 then st
  else ((if st.1 = [] then st.1 else st.1 ++ [' ']) ++ flag, st.2 ++ [lower flag])

/-- src/runtime/actions/action_flags.rs:24-38 `Action::Set`: the new text of the flag variable. -/
def setFlags (lower : List Char → List Char) (toks : List (List Char)) : List Char :=
  (toks.foldl (addTok lower) ([], [])).1

/-- src/runtime/actions/action_flags.rs:39-62 `Action::Add`. -/
def addFlags (lower : List Char → List Char) (old : List Char) (toks : List (List Char)) :
    List Char :=
  (toks.foldl (addTok lower) (old, (splitSp old).map lower)).1

/-- `Vec::swap_remove`.  For `removeTok`, `src/runtime/actions/action_flags.rs:75-82`. -/
def swapRemove {α : Type} (l : List α) (i : Nat) : List α :=
  match l.getLast? with
  | none => l
  | some x => (l.set i x).dropLast

/-- src/runtime/actions/action_flags.rs:75-82: the callback of `Action::Remove` on (current_flags, current_flags_lc). -/
def removeTok (lower : List Char → List Char) (st : List (List Char) × List (List Char))
    (flag : List Char) : List (List Char) × List (List Char) :=
  match st.2.findIdx? (· == lower flag) with
  | some pos => (swapRemove st.1 pos, swapRemove st.2 pos)
  | none => st

/-- src/runtime/actions/action_flags.rs:63-84 `Action::Remove`. -/
def removeFlags (lower : List Char → List Char) (old : List Char) (toks : List (List Char)) :
    List Char :=
  joinSp (toks.foldl (removeTok lower) (splitSp old, (splitSp old).map lower)).1

/-- src/runtime/actions/action_flags.rs:125-134 `get_global_flags` (and the reading of flag variables by `hasflag`):
the flags of a variable text. -/
def flagsOf (text : List Char) : List (List Char) := if text = [] then [] else splitSp text

/-- grammar/actions/action_flags.rs:39-43 `Action`. -/
inductive Action where | set | add | remove

/-- src/runtime/actions/action_flags.rs:15-86 `EditFlags::exec`: the new content of the variable, after the
truncation of `set_variable`. -/
def exec (lower : List Char → List Char) (ws : Char → Bool) (max : Nat) (a : Action)
    (old : List Char) (strings : List (List Char)) : Variable :=
  stored max <| .str <| match a with
    | .set => setFlags lower (tokens ws strings)
    | .add => addFlags lower old (tokens ws strings)
    | .remove => removeFlags lower old (tokens ws strings)

end Sieve.Flags
