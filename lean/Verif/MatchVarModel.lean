import Verif.StoreModel

/-!
# Match variables

How the compiler connects `${1}` with the tests that set it, and what the code then does:
`register_match_var` and `block_end` (`src/compiler/grammar/instruction.rs:889-962`), `parse_match_type`
(`src/compiler/grammar/mod.rs:263-291`), `parse_match_variable` (`src/compiler/lexer/string.rs:256-273`),
`set_match_variables` and `clear_match_variables` (`src/runtime/variables.rs`, see `StoreModel`).

Scripts are given by their structure; everything that is not about match variables is an arbitrary function on an
arbitrary state `W`.  That jumps realise this structure is C05 and C06.  A test is recorded by its number among the
tests and commands that have a match type, instead of its position in the code.
-/

namespace Sieve.MatchVar

open Sieve.Store (setMatch clearMatch)
open Sieve.SetVar (Variable)

/-- For `picked`, `glob.rs:186-244`. -/
abbrev Str := List Char

/-- A test.  `R` are match variables (numbers as written, see `Code`), `T` tells whether it has `:matches` or `:regex`.
`pre` are the variables in its arguments before this tag, `post` those after it.  The function gives the texts captured
if there is a match: the whole text and those of the wildcards or groups.  See `compiler/grammar/test.rs:123-564`. -/
structure Atom (W R T : Type) where
  tag : T
  pre : List R
  post : List R
  f : W → List Variable → W × Option (List Str)

/-- `not`, `allof`, `anyof`.  See `compiler/grammar/test.rs:123-564`. -/
inductive Cond (W R T : Type) where
  | atom (a : Atom W R T)
  | not (c : Cond W R T)
  | and (c d : Cond W R T)
  | or (c d : Cond W R T)

/-- Scripts.  `if c {a} elsif d {b} else {e}` is `ite c (block a) (ite d (block b) (block e))`: the test of an `elsif`
belongs to the same block as that of the `if`.  See `compiler/grammar/instruction.rs:146-829`. -/
inductive Code (W R T K : Type) where
  | skip
  | seq (a b : Code W R T K)
  /-- actions -/
  | act (us : List R) (f : W → List Variable → W)
  /-- `deleteheader` with `:matches` or `:regex` -/
  | delete (us : List R) (f : W → List Variable → W)
  | ite (c : Cond W R T) (a b : Code W R T K)
  | block (a : Code W R T K) (k : K)
  /-- `while`, `foreverypart` -/
  | loop (us : List R) (g : W → List Variable → W × Bool) (a : Code W R T K)
  /-- `continue`, `break` -/
  | exit (again : Bool)

/-- A script as written.  See `compiler/grammar/instruction.rs:146-829`. -/
abbrev Stmt (W : Type) := Code W Nat Bool Unit

/-- A compiled script: a variable is its number or nothing at all; tests that capture have a number; a block has the
`match_vars` of the `Clear` at its end.  See `compiler/grammar/instruction.rs:146-829`. -/
abbrev Prog (W : Type) := Code W (Option Nat) (Option Nat) Nat

/-- The part of `Block` about match variables, `instruction.rs:122-123` -/
structure Block where
  tests : List Nat
  vars : Nat
deriving DecidableEq

/-- The part of `CompilerState`: the numbers of `MatchType::Matches` and `MatchType::Regex` of the instructions so far
(none for `deleteheader`), `block` and `block_stack` (innermost first), `vars_match_max`.  For `var`, `string.rs:256-273`. -/
structure St where
  masks : List (Option Nat)
  blocks : List Block
  max : Nat
deriving DecidableEq

/-- The loop in `register_match_var`, `instruction.rs:904-936` -/
def mark (n : Nat) : List Nat → List (Option Nat) → Nat → Bool × List (Option Nat) × Nat
  | [], ms, v => (true, ms, v)
  | p :: ps, ms, v =>
    match ms[p]? with
    | some (some m) => mark n ps (ms.set p (some (m ||| 1 <<< n))) (m ||| 1 <<< n)
    | _ => (false, ms, v)

/-- `register_match_var`, `instruction.rs:889-941` -/
def markIn (n : Nat) : List Block → List (Option Nat) → Bool × List Block × List (Option Nat)
  | [], ms => (false, [], ms)
  | b :: bs, ms =>
    if b.tests = [] then
      let r := markIn n bs ms
      (r.1, b :: r.2.1, r.2.2)
    else
      let r := mark n b.tests ms b.vars
      (r.1, { b with vars := r.2.2 } :: bs, r.2.1)

/-- `MAX_MATCH_VARIABLES`, `src/lib.rs:23` -/
def maxMatch : Nat := 63

/-- `parse_match_variable`, `string.rs:256-273`; `none` is an error -/
def var (n : Nat) (st : St) : Option (Option Nat × St) :=
  if n < maxMatch then
    let r := markIn n st.blocks st.masks
    let st' := { st with blocks := r.2.1, masks := r.2.2 }
    if r.1 then some (some n, { st' with max := max st.max (n + 1) }) else some (none, st')
  else none

/-- See `string.rs:256-273`. -/
def vars : List Nat → St → Option (List (Option Nat) × St)
  | [], st => some ([], st)
  | n :: ns, st => do
    let (r, st) ← var n st
    let (rs, st) ← vars ns st
    return (r :: rs, st)

/-- `self.block.match_test_pos.push(self.instructions.len())`, `src/compiler/grammar/mod.rs:267-274` -/
def noteTest (st : St) : St :=
  match st.blocks with
  | [] => st
  | b :: bs => { st with blocks := { b with tests := b.tests ++ [st.masks.length] } :: bs }

/-- The instruction is added to the code.  See `compiler/grammar/instruction.rs:146-829`. -/
def emit (m : Option Nat) (st : St) : St := { st with masks := st.masks ++ [m] }

/-- The `parse_test_*` functions.  See `compiler/grammar/test.rs:123-564`. -/
def atom {W : Type} (a : Atom W Nat Bool) (st : St) : Option (Atom W (Option Nat) (Option Nat) × St) := do
  let (pre, st) ← vars a.pre st
  if a.tag then
    let (post, st') ← vars a.post (noteTest st)
    return (⟨some st.masks.length, pre, post, a.f⟩, emit (some 0) st')
  else
    let (post, st) ← vars a.post st
    return (⟨none, pre, post, a.f⟩, st)

/-- See `compiler/grammar/test.rs:123-564`. -/
def cond {W : Type} : Cond W Nat Bool → St → Option (Cond W (Option Nat) (Option Nat) × St)
  | .atom a, st => do
    let (a, st) ← atom a st
    return (.atom a, st)
  | .not c, st => do
    let (c, st) ← cond c st
    return (.not c, st)
  | .and c d, st => do
    let (c, st) ← cond c st
    let (d, st) ← cond d st
    return (.and c d, st)
  | .or c d, st => do
    let (c, st) ← cond c st
    let (d, st) ← cond d st
    return (.or c d, st)

/-- The beginning of a block, `instruction.rs:626-645` -/
def «open» (st : St) : St := { st with blocks := ⟨[], 0⟩ :: st.blocks }

/-- `block_end`, `instruction.rs:943-962`, and `block_stack.pop()`; no `Clear` and one with zero are the same. -/
def close (st : St) : Nat × St :=
  match st.blocks with
  | [] => (0, st)
  | b :: bs => (b.vars, { st with blocks := bs })

/-- See `compiler/grammar/instruction.rs:146-829`. -/
def stmt {W : Type} : Stmt W → St → Option (Prog W × St)
  | .skip, st => some (.skip, st)
  | .seq a b, st => do
    let (a, st) ← stmt a st
    let (b, st) ← stmt b st
    return (.seq a b, st)
  | .act us f, st => do
    let (us, st) ← vars us st
    return (.act us f, st)
  | .delete us f, st => do
    let (us, st) ← vars us (noteTest st)
    return (.delete us f, emit none st)
  | .ite c a b, st => do
    let (c, st) ← cond c st
    let (a, st) ← stmt a st
    let (b, st) ← stmt b st
    return (.ite c a b, st)
  | .block a _, st => do
    let (a, st) ← stmt a («open» st)
    let k := close st
    return (.block a k.1, k.2)
  | .loop us g a, st => do
    let (us, st) ← vars us st
    let (a, st) ← stmt a st
    return (.loop us g a, st)
  | .exit again, st => some (.exit again, st)

/-- See `compiler/grammar/instruction.rs:146-829`. -/
def St.new : St := ⟨[], [⟨[], 0⟩], 0⟩

/-- `Compiler::compile`: the script, the numbers of its tests, and how many match variables it has
(`num_match_vars`).  See `compiler/grammar/instruction.rs:146-829`. -/
def compile {W : Type} (s : Stmt W) : Option (Prog W × List (Option Nat) × Nat) :=
  (stmt s St.new).map fun r => (r.1, r.2.masks, r.2.max)

/-! ## Execution -/

/-- `eval.rs:31` and `:102-106`: a variable that does not exist leaves nothing in the string. -/
def get (vs : List Variable) : Option Nat → Variable
  | some n =>
    match vs[n]? with
    | some v => v
    | none => .str []
  | none => .str []

/-- What `capture` and `eval_regex` return: the texts at the positions asked for (`glob.rs:186-244`,
`comparator.rs:123-135`). -/
def picked (m : Nat) (caps : List Str) : List (Nat × Str) := (caps.zipIdx.filter fun p => m.testBit p.2).map fun p => (p.2, p.1)

/-- A test with the number given in the table; a table without it has the test not capture.
See `runtime/tests/mod.rs:39-120`. -/
def test {W : Type} (ms : List (Option Nat)) (a : Atom W (Option Nat) (Option Nat)) (w : W) (vs : List Variable) :
    W × List Variable × Bool :=
  let r := a.f w ((a.pre ++ a.post).map (get vs))
  match r.2 with
  | none => (r.1, vs, false)
  | some caps =>
    match a.tag with
    | none => (r.1, vs, true)
    | some t =>
      match ms[t]? with
      | some (some m) => (r.1, setMatch vs (picked m caps), true)
      | _ => (r.1, vs, true)

/-- See `runtime/tests/mod.rs:39-120`. -/
def check {W : Type} (ms : List (Option Nat)) : Cond W (Option Nat) (Option Nat) → W → List Variable → W × List Variable × Bool
  | .atom a, w, vs => test ms a w vs
  | .not c, w, vs =>
    let r := check ms c w vs
    (r.1, r.2.1, !r.2.2)
  | .and c d, w, vs =>
    let r := check ms c w vs
    if r.2.2 then check ms d r.1 r.2.1 else r
  | .or c d, w, vs =>
    let r := check ms c w vs
    if r.2.2 then r else check ms d r.1 r.2.1

/-- See `runtime/context.rs:81-441`. -/
inductive Exit where
  | normal
  | brk
  | cont
deriving DecidableEq

/-- A step counter bounds the execution; `none` if it runs out.  A jump out of a block skips the `Clear` at its end.
See `runtime/context.rs:81-441`. -/
def run {W : Type} (ms : List (Option Nat)) : Nat → Prog W → W → List Variable → Option (W × List Variable × Exit)
  | 0, _, _, _ => none
  | _ + 1, .skip, w, vs => some (w, vs, .normal)
  | n + 1, .seq a b, w, vs =>
    match run ms n a w vs with
    | some (w, vs, .normal) => run ms n b w vs
    | r => r
  | _ + 1, .act us f, w, vs => some (f w (us.map (get vs)), vs, .normal)
  | _ + 1, .delete us f, w, vs => some (f w (us.map (get vs)), vs, .normal)
  | n + 1, .ite c a b, w, vs =>
    let r := check ms c w vs
    if r.2.2 then run ms n a r.1 r.2.1 else run ms n b r.1 r.2.1
  | n + 1, .block a k, w, vs =>
    match run ms n a w vs with
    | some (w, vs, .normal) => some (w, clearMatch k vs, .normal)
    | r => r
  | n + 1, .loop us g a, w, vs =>
    let t := g w (us.map (get vs))
    if t.2 then
      match run ms n a t.1 vs with
      | some (w, vs, .brk) => some (w, vs, .normal)
      | some (w, vs, _) => run ms n (.loop us g a) w vs
      | none => none
    else some (t.1, vs, .normal)
  | _ + 1, .exit again, w, vs => some (w, vs, if again then .cont else .brk)

/-- The script as the interpreter runs it.  See `runtime/context.rs:81-441`. -/
def execute {W : Type} (fuel : Nat) (p : Prog W × List (Option Nat) × Nat) (w : W) : Option W :=
  (run p.2.1 fuel p.1 w (List.replicate p.2.2 (.str []))).map (·.1)

end Sieve.MatchVar
