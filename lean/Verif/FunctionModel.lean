import Verif.ExprProps

/-!
# Functions of the host

How functions are registered and called by name: `FunctionMap` (`src/runtime/mod.rs:610-666`), `register_functions`
(`src/compiler/mod.rs:425-428`), `parse_expr_fnc_or_var` (`src/compiler/lexer/string.rs:473-494`); what a call does is in
`ExprModel`.  Simplifications: a function is a function of its arguments only; `u32` arithmetic wraps, as in a release
build (with overflow checks `set_external_function` panics instead).
-/

namespace Sieve.Func

open Sieve.Expr

/-- For `FMap`, `src/lib.rs:62-66`. -/
abbrev Name := List Char

/-- `with_function_args` (of which `with_function` and `with_function_no_args` are cases) and `with_external_function`.
For `FMap.add`, `src/runtime/mod.rs:636-646`. -/
inductive Reg (F : Type) where
  | fn (name : Name) (f : F) (args : Nat)
  | ext (name : Name) (id args : Nat)

/-- `FunctionMap`, `src/lib.rs:62-66` -/
structure FMap (F : Type) where
  map : Name → Option (Nat × Nat)
  fns : List F

variable {F : Type}

/-- `FunctionMap::new`, `src/runtime/mod.rs:621-626` -/
def FMap.new : FMap F := ⟨fun _ => none, []⟩

/-- For `FMap.add`, `src/runtime/mod.rs:636-646`. -/
def insert (f : Name → Option (Nat × Nat)) (n : Name) (v : Nat × Nat) : Name → Option (Nat × Nat) :=
  fun m => if m = n then some v else f m

/-- `as u32`.  For `FMap.add`, `src/runtime/mod.rs:636-646`. -/
def u32 (n : Nat) : Nat := n % 2 ^ 32

/-- `-` of `u32`.  For `FMap.add`, `src/runtime/mod.rs:636-646`. -/
def sub32 (a b : Nat) : Nat := u32 (a + 2 ^ 32 - b)

/-- `with_function_args`, `src/runtime/mod.rs:636-646`, and `set_external_function`, `src/runtime/mod.rs:658-665` -/
def FMap.add (m : FMap F) : Reg F → FMap F
  | .fn name f args => ⟨insert m.map name (u32 m.fns.length, args), m.fns ++ [f]⟩
  | .ext name id args => { m with map := insert m.map name (sub32 idExternal id, args) }

/-- See `runtime/mod.rs:628-665`. -/
def FMap.build (regs : List (Reg F)) : FMap F := regs.foldl FMap.add .new

/-- `Compiler::register_functions`, `compiler/mod.rs:425-428`: the names the compiler knows, and what is left. -/
def FMap.compiler (m : FMap F) : (Name → Option (Nat × Nat)) × FMap F := (m.map, { m with map := fun _ => none })

/-- `Runtime::with_functions`, `src/runtime/mod.rs:610-613`: the functions of the runtime, and what is left. -/
def FMap.runtime (m : FMap F) : List F × FMap F := (m.fns, { m with fns := [] })

/-- `parse_expr_fnc_or_var`, `string.rs:473-494`; `var` is `parse_variable`. -/
def tokOf {X : Type} (var : Name → Option X) (map : Name → Option (Nat × Nat)) (n : Name) : Option (X ⊕ (Nat × Nat)) :=
  match var n with
  | some x => some (.inl x)
  | none => (map n).map .inr

end Sieve.Func
