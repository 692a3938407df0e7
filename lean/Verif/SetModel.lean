import Verif.TextModel
/-
Model of `runtime/actions/action_set.rs` (`Context::set_variable`, `Modifier::apply`) and of the
modifier ordering of `compiler/grammar/actions/action_set.rs`.
-/
namespace Sieve.SetVar

/-- runtime/mod.rs:36-41 `Variable`.  Floats are opaque: they carry their printed form. -/
inductive Variable where
  | str (s : List Char)
  | int (n : Int)
  | float (printed : List Char)
  | array (l : List Variable)

/-- `i64::to_string`.  For `arrayTextGo`, `runtime/mod.rs:280-298`. -/
def intText (n : Int) : List Char := (toString n).toList

/-- runtime/mod.rs:280-298 `Vec<Variable>::to_string`, `result` being the text so far: items are
joined by CRLF, nested arrays contribute nothing. -/
def arrayTextGo : List Variable → List Char → List Char
  | [], result => result
  | item :: items, result =>
    let result := if result = [] then result else result ++ ['\r', '\n']
    arrayTextGo items <| match item with
      | .str s => result ++ s
      | .int n => result ++ intText n
      | .float p => result ++ p
      | .array _ => result

/-- runtime/mod.rs:60-67 `Variable::to_string`. -/
def Variable.text : Variable → List Char
  | .str s => s
  | .int n => intText n
  | .float p => p
  | .array l => arrayTextGo l []

/-- runtime/mod.rs:106-112 `Variable::len`. -/
def Variable.len : Variable → Nat
  | .str s => byteLen s
  | .int _ => 2
  | .float _ => 2
  | .array l => lens l
where
  lens : List Variable → Nat
    | [] => 0
    | v :: vs => (v.len + 2) + lens vs

/-- src/runtime/actions/action_set.rs:31-38: the truncation loop; `acc` is `new_variable`. -/
def truncGo (max : Nat) : List Char → List Char → List Char
  | acc, [] => acc
  | acc, c :: cs => if c.utf8Size + byteLen acc ≤ max then truncGo max (acc ++ [c]) cs else acc

/-- src/runtime/actions/action_set.rs:28-40: the value actually stored by `set_variable` (used by `set`, `let` and the
flag actions). -/
def stored (max : Nat) (v : Variable) : Variable :=
  if max < v.len then .str (truncGo max [] v.text) else v

/-- External text functions used by the modifiers: `str::to_lowercase`, `str::to_uppercase`,
`char::to_lowercase`, `char::to_uppercase` and `str::replace`.  For `Modifier.apply`, `src/runtime/actions/action_set.rs:93-205`. -/
structure Ext where
  lowerStr : List Char → List Char
  upperStr : List Char → List Char
  lowerChar : Char → List Char
  upperChar : Char → List Char
  replace : List Char → List Char → List Char → List Char

/-- grammar/actions/action_set.rs:30-40 `Modifier`; the arguments of `:replace` are taken as
already evaluated texts. -/
inductive Modifier where
  | lower | upper | lowerFirst | upperFirst | quoteWildcard | quoteRegex | encodeUrl | length
  | replace (find repl : List Char)
deriving DecidableEq

/-- grammar/actions/action_set.rs:42-56 `Modifier::order`. -/
def Modifier.order : Modifier → Nat
  | .lower => 41
  | .upper => 40
  | .lowerFirst => 31
  | .upperFirst => 30
  | .quoteWildcard => 20
  | .quoteRegex => 21
  | .encodeUrl => 15
  | .length => 10
  | .replace _ _ => 40

/-- src/runtime/actions/action_set.rs:98-130 (LowerFirst, UpperFirst): `first` is true at position 0. -/
def mapFirstGo (f : Char → List Char) (max : Nat) : Bool → List Char → List Char → List Char
  | _, acc, [] => acc
  | first, acc, c :: cs =>
    if byteLen acc + c.utf8Size ≤ max then
      mapFirstGo f max false (acc ++ if first then f c else [c]) cs
    else acc

/-- src/runtime/actions/action_set.rs:131-148 (QuoteWildcard) and 149-172 (QuoteRegex). -/
def quoteGo (special : List Char) (max : Nat) : List Char → List Char → List Char
  | acc, [] => acc
  | acc, c :: cs =>
    if c ∈ special then
      if byteLen acc + c.utf8Size < max then quoteGo special max (acc ++ ['\\', c]) cs else acc
    else if byteLen acc + c.utf8Size ≤ max then quoteGo special max (acc ++ [c]) cs
    else acc

/-- src/runtime/actions/action_set.rs:134. -/
def wildcardSpecials : List Char := ['*', '\\', '?']

/-- src/runtime/actions/action_set.rs:153-155. -/
def regexSpecials : List Char :=
  ['*', '\\', '?', '.', '[', ']', '(', ')', '+', '{', '}', '|', '^', '=', ':', '$']

/-- One lower-case hexadecimal digit.  For `pctByte`, `src/runtime/actions/action_set.rs:187`. -/
def hexDigit (n : Nat) : Char :=
  if n < 10 then Char.ofNat (48 + n) else Char.ofNat (87 + n)

/-- src/runtime/actions/action_set.rs:187 `write!(result, "%{byte:02x}")`. -/
def pctByte (b : UInt8) : List Char := ['%', hexDigit (b.toNat / 16), hexDigit (b.toNat % 16)]

/-- src/runtime/actions/action_set.rs:179 the characters copied unchanged. -/
def unreserved (c : Char) : Bool :=
  (c.isAlphanum) || c == '-' || c == '.' || c == '_' || c == '~'

/-- src/runtime/actions/action_set.rs:174-195 (EncodeUrl). -/
def encodeUrlGo (max : Nat) : List Char → List Char → List Char
  | acc, [] => acc
  | acc, c :: cs =>
    if unreserved c then
      if byteLen acc < max then encodeUrlGo max (acc ++ [c]) cs else acc
    else if byteLen acc + c.utf8Size * 3 ≤ max then
      encodeUrlGo max (acc ++ (String.utf8EncodeChar c).flatMap pctByte) cs
    else acc

/-- src/runtime/actions/action_set.rs:93-205 `Modifier::apply` with `max_len = max`. -/
def Modifier.apply (x : Ext) (max : Nat) (s : List Char) : Modifier → List Char
  | .lower => x.lowerStr s
  | .upper => x.upperStr s
  | .lowerFirst => mapFirstGo x.lowerChar max true [] s
  | .upperFirst => mapFirstGo x.upperChar max true [] s
  | .quoteWildcard => quoteGo wildcardSpecials max [] s
  | .quoteRegex => quoteGo regexSpecials max [] s
  | .length => (toString s.length).toList
  | .encodeUrl => encodeUrlGo max [] s
  | .replace find repl => x.replace s find repl

/-- src/runtime/actions/action_set.rs:18-25 `Set::exec`: the value given to `set_variable`. -/
def applyAll (x : Ext) (max : Nat) : List Modifier → Variable → Variable
  | [], v => v
  | m :: ms, v => applyAll x max ms (.str (m.apply x max v.text))

/-- The variable content after `set` with (sorted) modifiers `ms`.  See `runtime/actions/action_set.rs:18-25`. -/
def execSet (x : Ext) (max : Nat) (ms : List Modifier) (v : Variable) : Variable :=
  stored max (applyAll x max ms v)

/-- grammar/actions/action_set.rs:88-120: the modifier list collected from the tags; the argument
free modifiers are entered once. -/
def collect : List Modifier → List Modifier → List Modifier
  | acc, [] => acc
  | acc, m :: ms =>
    match m with
    | .replace _ _ => collect (acc ++ [m]) ms
    | _ => if m ∈ acc then collect acc ms else collect (acc ++ [m]) ms

/-- grammar/actions/action_set.rs:128 `sort_unstable_by_key(Reverse(order))`: the result is some
rearrangement in descending order (the order of elements with equal keys is not specified). -/
def SortedBy (written sorted : List Modifier) : Prop :=
  sorted.Perm (collect [] written) ∧ sorted.Pairwise fun a b => b.order ≤ a.order

end Sieve.SetVar
