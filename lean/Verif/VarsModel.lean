import Verif.CoreModel
import Verif.SetModel
import Verif.StringModel

/-!
# The core language with variables

The commands and tests of `CoreModel` with variables in their arguments, `set` and the test `string`.  Strings are read by
`tokenize_string` and evaluated by `eval_value` (`StringModel`), modifiers are those of `SetModel`, variables are kept in the slots that
the compiler gives them (`ScopeModel`).

What is simplified.

* A reference to a variable stands for the slot that the variable has in the whole script; `VarsScope` says for which scripts that is so.
* Match variables, namespaces, and `:replace` in `set` are errors here.
* Names of variables are ASCII, as in `ScopeModel`.
-/

namespace Sieve.Vars

open Sieve.Args Sieve.Fields

/-- A name in lower case.  For `Host.strs`, `string.rs:276-333`. -/
abbrev Name := List UInt8

/-- The values of variables; `none` for what is no variable of the script.
For `Host.values`, `src/runtime/eval.rs:26-93`. -/
abbrev Store (F : Type) := Name → Option (Expr.Val F)

/-- What the commands and tests read.  For `Host.strs`, `string.rs:276-333`. -/
structure Host (W F N : Type) where
  core : Core.Host W F N
  /-- the variables of the script: their names in lower case, by slot -/
  names : List Name
  /-- `i64::from_str` -/
  parseInt : Str.Bytes → Option Int
  /-- `i64::to_string` -/
  showInt : Int → Str.Bytes
  /-- `f64::from_str` -/
  parseFlt : Str.Bytes → Option F
  /-- `f64::to_string` -/
  showFlt : F → Str.Bytes
  /-- `into_string` -/
  chars : Str.Bytes → List Char
  /-- the conversions between capital and small letters -/
  mod : SetVar.Ext
  /-- `runtime.max_variable_size` -/
  max : Nat

variable {W V F N : Type} [DecidableEq F]

/-- `parse_variable`, `string.rs:276-333`. -/
def Host.strs (H : Host W F N) : Str.Ext Name F where
  named := fun ns n => if ns then .fail else if lower n ∈ H.names then .var (lower n) else .none
  numbered := fun _ => .fail
  parseInt := H.parseInt
  showInt := H.showInt
  parseFlt := H.parseFlt
  showFlt := H.showFlt

/-- `Context::variable` and the conversions of `Variable`, `src/runtime/eval.rs:26-93`, `src/runtime/mod.rs:38-107`. -/
def Host.values (H : Host W F N) (w : W) (σ : Store F) : Str.Values Name F (Expr.Val F) where
  get := σ
  toText := fun r => (H.core.env w).x.utf8 (Tests.text (H.core.env w).x.flt r)
  str := fun b => .str (H.chars b)
  int := .int
  flt := .flt
  default := .str []

/-- `Context::eval_value`, `src/runtime/eval.rs:92-124`. -/
def Host.eval (H : Host W F N) (σ : Store F) (w : W) : Val F → Expr.Val F
  | .var s =>
    match Str.tokenize H.strs true s with
    | some items => Str.evalValue H.strs (H.values w σ) items
    | none => .str []
  | v => (H.core.env w).eval v

/-- The core language in a state of the variables.  For `Host.test`, `src/runtime/tests/mod.rs:39-120`. -/
def Host.at (H : Host W F N) : Core.Host (Store F × W) F N where
  env := fun q => { H.core.env q.2 with eval := H.eval q.1 q.2 }
  fuel := fun q => H.core.fuel q.2
  size := fun q => H.core.size q.2
  user := fun q => H.core.user q.2
  time := H.core.time
  flagText := fun q => H.core.flagText q.2
  received := fun q => H.core.received q.2
  caps := H.core.caps

/-- `ctx.vars_local` by the names of the variables.  See `runtime/eval.rs:26-93`. -/
def Host.see (H : Host W F N) (v : Vm.View W (Expr.Val F)) : Store F × W :=
  (fun n => (H.names.idxOf? n).bind fun i => v.locals[i]?, v.world)

/-- `tokenize_string` accepts the string.  See `compiler/grammar/mod.rs:365-381`. -/
def Host.readable (H : Host W F N) : Val F → Bool
  | .var s => (Str.tokenize H.strs true s).isSome
  | _ => true

/-- All strings in an argument are accepted.  See `compiler/grammar/mod.rs:365-401`. -/
def Host.readableArg (H : Host W F N) : Arg F → Bool
  | .val v => H.readable v
  | .vals vs => vs.all H.readable
  | .pair a b => H.readable a && H.readable b
  | _ => true

/-- See `compiler/grammar/mod.rs:365-401`. -/
def Host.accepts (H : Host W F N) (g : Got F) : Bool := g.pos.all H.readableArg && g.tags.all fun p => H.readableArg p.2

/-! ## Tests -/

/-- `Test::exec`, `src/runtime/tests/mod.rs:39-120`, with `is_not = false`. -/
def Host.test [DecidableEq N] (H : Host W F N) (q : Store F × W) : Script.Node F → Option Bool
  | .test .String g => (StringTest.of g).bind fun i => Core.boolOf (Written.string (H.at.env q) false 0 i)
  | n => H.at.test q n

/-! ## `set` -/

/-- `Word` to `Modifier`, `src/compiler/grammar/actions/action_set.rs:194-206` (compiler). -/
def modOf : Word → Option SetVar.Modifier
  | .Lower => some .lower
  | .Upper => some .upper
  | .LowerFirst => some .lowerFirst
  | .UpperFirst => some .upperFirst
  | .QuoteWildcard => some .quoteWildcard
  | .QuoteRegex => some .quoteRegex
  | .EncodeUrl => some .encodeUrl
  | .Length => some .length
  | _ => none

/-- A place for a modifier: after all of higher order.  For `sortMods`, `src/compiler/grammar/actions/action_set.rs:133`. -/
def insertMod (m : SetVar.Modifier) : List SetVar.Modifier → List SetVar.Modifier
  | [] => [m]
  | a :: l => if m.order ≤ a.order then a :: insertMod m l else m :: a :: l

/-- `modifiers.sort_unstable_by_key(..)`, `src/compiler/grammar/actions/action_set.rs:133` (compiler). -/
def sortMods (l : List SetVar.Modifier) : List SetVar.Modifier := l.foldr insertMod []

/-- `Set`, `src/compiler/grammar/actions/action_set.rs:66-70` (compiler) -/
structure Set (F : Type) where
  modifiers : List SetVar.Modifier
  name : Name
  value : Val F

/-- `parse_set`, `src/compiler/grammar/actions/action_set.rs:87-141` (compiler). -/
def Set.of (g : Got F) : Option (Set F) :=
  match g.pos with
  | [.text n, .val v] =>
    if g.tags.any (fun p => p.1 == .Replace) then none
    else some ⟨sortMods (SetVar.collect [] (g.tags.filterMap fun p => modOf p.1)), lower n, v⟩
  | _ => none

mutual
/-- `Variable::len`, `src/runtime/mod.rs:106-112`. -/
def len : Expr.Val F → Nat
  | .str s => byteLen s
  | .int _ => 2
  | .flt _ => 2
  | .arr l => lens l
/-- See `runtime/mod.rs:109-115`. -/
def lens : List (Expr.Val F) → Nat
  | [] => 0
  | v :: l => len v + 2 + lens l
end

/-- `set_variable`, `src/runtime/actions/action_set.rs:28-40` (runtime): what is stored. -/
def stored (A : Expr.Flt F) (max : Nat) (v : Expr.Val F) : Expr.Val F :=
  if max < len v then .str (SetVar.truncGo max [] (Tests.text A v)) else v

/-- `Set::exec`, `src/runtime/actions/action_set.rs:18-25` (runtime): the modifiers one after the other. -/
def applyAll (A : Expr.Flt F) (x : SetVar.Ext) (max : Nat) (ms : List SetVar.Modifier) (v : Expr.Val F) : Expr.Val F :=
  ms.foldl (fun v m => .str (m.apply x max (Tests.text A v))) v

/-- The value that `set` stores.  See `runtime/actions/action_set.rs:18-40`. -/
def Host.newValue (H : Host W F N) (i : Set F) (q : Store F × W) : Expr.Val F :=
  let A := (H.core.env q.2).x.flt
  stored A H.max (applyAll A H.mod H.max i.modifiers (H.eval q.1 q.2 i.value))

/-! ## Commands -/

/-- The instruction of a command.  See `runtime/context.rs:124-441`. -/
def Host.act (H : Host W F N) (n : Script.Node F) : Vm.Instr W (Expr.Val F) Core.Place :=
  if H.accepts (Core.got n) then
    match n with
    | .cmd .Set g =>
      match Set.of g with
      | some i =>
        match H.names.idxOf? i.name with
        | some k => .assign (.local k) fun v => H.newValue i (H.see v)
        | none => .invalid .nowhere
      | none => .invalid .nowhere
    | n => H.at.action H.see n
  else .invalid .nowhere

theorem act_plain (H : Host W F N) (n : Script.Node F) : Source.Plain (H.act n) := by
  unfold Host.act
  split
  · split
    · split
      · split <;> trivial
      · trivial
    · exact Core.action_plain _ _ _
  · trivial

/-- The language for the interpreter.  See `runtime/context.rs:124-441`. -/
def Host.interp [DecidableEq N] (H : Host W F N) (cfg : Vm.Cfg W (Expr.Val F) Core.Place) (notV : Expr.Val F → Expr.Val F)
    (not_spec : ∀ v, cfg.toBool (notV v) = !cfg.toBool v) : Source.Interp cfg (Script.Node F) (Script.Node F) (List UInt8) where
  act := H.act
  plain := act_plain H
  test := fun n v =>
    match if H.accepts (Core.got n) then H.test (H.see v) n else none with
    | some b => ⟨.bool b, v.matchv, v.world, false⟩
    | none => ⟨.error .nowhere, v.matchv, v.world, false⟩
  expr := fun _ v => .call .nowhere v.world
  bad := fun _ => .nowhere
  notV := notV
  not_spec := not_spec

end Sieve.Vars
