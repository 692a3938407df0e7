import Verif.Prelude

/-!
# Variables: names, blocks and slots

Model of the compiler's treatment of script variables, `src/compiler/grammar/instruction.rs:830-962` (scopes
and slots), `:964-1204` (`map_local_vars`), `src/compiler/grammar/actions/action_set.rs:152-198`
(`parse_variable_name`, `register_variable`), `src/compiler/lexer/string.rs:276-333` (`parse_variable`), and of
the run-time accesses in `src/runtime/eval.rs:26-30`, `src/runtime/actions/action_set.rs:28-90` and
`src/runtime/context.rs:177-195` (`Clear`).

Simplifications.  Scripts are given by their structure (`Stmt`); that bytecode runs as structured is C06.  An
`elsif` is an `else` block with an `if` in it: the additional empty block emits nothing.  Names are ASCII, so that
`to_lowercase` is `to_ascii_lowercase`, and have no namespace other than `global`/`t`.  Everything that is not
about variables (tests, actions, parts of the message, match variables) is in the functions `f` and `g` on an
arbitrary state `W`.  The limits on nested blocks and name lengths and the clearing of match variables are left out.
-/

namespace Sieve.Scope

/-- For `Ref`, `string.rs:120`. -/
abbrev Name := List Char

/-- `to_ascii_lowercase`.  For `getLocal`, `instruction.rs:875-887`. -/
def asciiChar (c : Char) : Char :=
  if 'A' ≤ c ∧ c ≤ 'Z' then Char.ofNat (c.toNat + 32) else c

/-- For `getLocal`, `instruction.rs:875-887`. -/
def ascii (n : Name) : Name := n.map asciiChar

/-- A variable as written: `x`, or `global.x`.  For `declare`, `src/compiler/grammar/actions/action_set.rs:169-190`. -/
inductive Var where
  | plain (n : Name)
  | global (n : Name)
deriving DecidableEq

/-- An occurrence of a variable in a string or expression.  `mapped` tells whether `map_local_vars`
(`instruction.rs:964-1204`) visits the place: it does not visit the strings of `:replace` in `set` and
`extracttext` and those of `:content` in `body`. -/
structure Use (R : Type) where
  ref : R
  mapped : Bool
deriving DecidableEq

/-- The statements of a script.  `U` are the variables as written or references (see `Code`), `K` what is done at
the end of a block.  For `resolve`, `instruction.rs:513-540`. -/
inductive Code (W V R K : Type) where
  | skip
  | seq (a b : Code W V R K)
  /-- `set`, `let` and others that assign to a variable; `asLocal` for `:local` -/
  | set (x : R) (asLocal : Bool) (us : List (Use R)) (f : W → List V → V)
  /-- anything else -/
  | act (us : List (Use R)) (f : W → List V → W)
  /-- `global` -/
  | global (n : Name)
  | ite (us : List (Use R)) (g : W → List V → W × Bool) (a : Code W V R K) (ka : K) (b : Code W V R K) (kb : K)
  /-- `while`, `foreverypart` -/
  | loop (us : List (Use R)) (g : W → List V → W × Bool) (a : Code W V R K) (ka : K)
  /-- `continue`, `break` -/
  | exit (again : Bool)

/-- A script as written.  For `resolve`, `instruction.rs:513-540`. -/
abbrev Stmt (W V : Type) := Code W V Var Unit

/-- `VariableType`, `src/compiler/mod.rs`: a slot, a global variable, or no variable at all (`Ok(None)` in
`tokenize_string`, `string.rs:120`, which leaves nothing in the string). -/
inductive Ref (L : Type) where
  | loc (id : L)
  | glob (n : Name)
  | none
deriving DecidableEq

/-- `Clear`, `src/compiler/grammar/mod.rs:164-168` -/
structure Clear where
  idx : Nat
  num : Nat
deriving DecidableEq

/-- The part of `CompilerState` about variables, `instruction.rs:100-143`.  `stack` is `block_stack`, the innermost
block first; a map is the list of its entries. -/
structure St where
  block : List (Name × Nat)
  stack : List (List (Name × Nat))
  globals : List Name
  /-- `vars_num` -/
  num : Nat
  /-- `vars_num_max` -/
  max : Nat
  /-- `vars_local` -/
  loc : Nat

/-- `usize::MAX`.  For `register`, `instruction.rs:851-869`. -/
def top : Nat := 2 ^ 64 - 1

/-- For `getLocal`, `instruction.rs:875-887`. -/
def find (l : List (Name × Nat)) (n : Name) : Option Nat := (l.find? fun e => e.1 = n).map Prod.snd

/-- `get_local_var`, `instruction.rs:875-887` -/
def getLocal (st : St) (n : Name) : Option Nat := (st.block :: st.stack).findSome? fun b => find b (ascii n)

/-- `is_var_global`, `instruction.rs:845-848` -/
def isGlobal (st : St) (n : Name) : Bool := ascii n ∈ st.globals

/-- `is_var_local`, `instruction.rs:831-843` -/
def isLocal (st : St) (n : Name) : Bool := (getLocal st n).isSome

/-- `block_stack.first_mut().unwrap().vars_local.insert(..)`.  For `register`, `instruction.rs:851-869`. -/
def addOuter {α : Type} (e : Name × α) : List (List (Name × α)) → List (List (Name × α))
  | [] => []
  | [b] => [e :: b]
  | b :: bs => b :: addOuter e bs

/-- `register_local_var`, `instruction.rs:851-869` -/
def register (st : St) (n : Name) (asLocal : Bool) : Nat × St :=
  match getLocal st n with
  | some id => (id, st)
  | none =>
    if !asLocal || st.stack.isEmpty then
      (st.num, { st with block := (n, st.num) :: st.block, num := st.num + 1 })
    else (top - st.loc, { st with stack := addOuter (n, top - st.loc) st.stack, loc := st.loc + 1 })

/-- `register_variable`, `src/compiler/grammar/actions/action_set.rs:169-190` -/
def declare (st : St) (x : Var) (asLocal : Bool) : Ref Nat × St :=
  match x with
  | .plain n =>
    let n := ascii n
    if isGlobal st n then (.glob n, st)
    else
      let r := register st n asLocal
      (.loc r.1, r.2)
  | .global n => (.glob (ascii n), st)

/-- `parse_variable`, `string.rs:276-333` -/
def use (st : St) (x : Var) : Ref Nat :=
  match x with
  | .plain n =>
    if isGlobal st n then .glob n
    else
      match getLocal st n with
      | some id => .loc id
      | none => .none
  | .global n => .glob (ascii n)

/-- For `resolve`, `instruction.rs:513-540`. -/
def uses (st : St) (us : List (Use Var)) : List (Use (Ref Nat)) := us.map fun u => ⟨use st u.ref, u.mapped⟩

/-- The beginning of a block, `instruction.rs:626-645` -/
def «open» (st : St) : St := { st with block := [], stack := st.block :: st.stack }

/-- `block_end`, `instruction.rs:943-962`, followed by `block_stack.pop()` -/
def close (st : St) : Option Clear × St :=
  let n := st.block.length
  let st' := { st with block := st.stack.headD [], stack := st.stack.tail }
  if 0 < n then (some ⟨st.num - n, n⟩, { st' with max := max st.max st.num, num := st.num - n })
  else (none, st')

/-- The script with its variables resolved; `none` if the compiler rejects it (`VariableIsLocal`,
`instruction.rs:513-540`). -/
def resolve {W V : Type} : Stmt W V → St → Option (Code W V (Ref Nat) (Option Clear) × St)
  | .skip, st => some (.skip, st)
  | .seq a b, st => do
    let (a, st) ← resolve a st
    let (b, st) ← resolve b st
    return (.seq a b, st)
  | .set x asLocal us f, st =>
    let d := declare st x asLocal
    some (.set d.1 asLocal (uses d.2 us) f, d.2)
  | .act us f, st => some (.act (uses st us) f, st)
  | .global n, st =>
    if isLocal st n then none
    else some (.skip, { st with globals := ascii n :: st.globals })
  | .ite us g a _ b _, st => do
    let us := uses st us
    let (a, st) ← resolve a («open» st)
    let (ka, st) := close st
    let (b, st) ← resolve b («open» st)
    let (kb, st) := close st
    return (.ite us g a ka b kb, st)
  | .loop us g a _, st => do
    let us := uses st us
    let (a, st) ← resolve a («open» st)
    let (ka, st) := close st
    return (.loop us g a ka, st)
  | .exit again, st => some (.exit again, st)

/-- `map_local_vars` for a variable, `instruction.rs:1155-1163` -/
def mapId (last : Nat) (id : Nat) : Nat := if last < id then (top - id) + last else id

/-- For `mapCode`, `instruction.rs:964-1047`. -/
def mapRef (last : Nat) : Ref Nat → Ref Nat
  | .loc id => .loc (mapId last id)
  | r => r

/-- For `mapCode`, `instruction.rs:964-1047`. -/
def mapUse (last : Nat) (u : Use (Ref Nat)) : Use (Ref Nat) := if u.mapped then ⟨mapRef last u.ref, true⟩ else u

/-- `map_local_vars`, `instruction.rs:964-1047` -/
def mapCode {W V : Type} (last : Nat) :
    Code W V (Ref Nat) (Option Clear) → Code W V (Ref Nat) (Option Clear)
  | .skip => .skip
  | .seq a b => .seq (mapCode last a) (mapCode last b)
  | .set x l us f => .set (mapRef last x) l (us.map (mapUse last)) f
  | .act us f => .act (us.map (mapUse last)) f
  | .global n => .global n
  | .ite us g a ka b kb => .ite (us.map (mapUse last)) g (mapCode last a) ka (mapCode last b) kb
  | .loop us g a ka => .loop (us.map (mapUse last)) g (mapCode last a) ka
  | .exit e => .exit e

/-- For `compile`, `instruction.rs:811-827`. -/
def St.new : St := ⟨[], [], [], 0, 0, 0⟩

/-- `Compiler::compile`, `instruction.rs:811-827`: the script and the number of slots (`num_vars`). -/
def compile {W V : Type} (s : Stmt W V) : Option (Code W V (Ref Nat) (Option Clear) × Nat) :=
  match resolve s St.new with
  | none => none
  | some (c, st) =>
    let n := max st.max st.num
    if 0 < st.loc then some (mapCode n c, n + st.loc) else some (c, n)

/-! ## Execution -/

/-- See `runtime/context.rs:81-441`. -/
inductive Exit where
  | normal
  | brk
  | cont
deriving DecidableEq

/-- A memory for variables.  For `slots`, `eval.rs:26-30`. -/
structure Memory (M V R K : Type) where
  get : M → R → V
  put : M → R → V → M
  /-- the end of a block -/
  drop : M → K → M

section Run
variable {W V R K M : Type}

/-- A step counter bounds the execution; `none` if it runs out.  `early` tells whether leaving a block by `break` or
`continue` is the end of the block as well.  See `runtime/context.rs:81-441`. -/
def run (mem : Memory M V R K) (early : Bool) : Nat → Code W V R K → W → M → Option (W × M × Exit)
  | 0, _, _, _ => none
  | _ + 1, .skip, w, m => some (w, m, .normal)
  | n + 1, .seq a b, w, m =>
    match run mem early n a w m with
    | some (w, m, .normal) => run mem early n b w m
    | r => r
  | _ + 1, .set x _ us f, w, m => some (w, mem.put m x (f w (us.map fun u => mem.get m u.ref)), .normal)
  | _ + 1, .act us f, w, m => some (f w (us.map fun u => mem.get m u.ref), m, .normal)
  | _ + 1, .global _, w, m => some (w, m, .normal)
  | n + 1, .ite us g a ka b kb, w, m =>
    let t := g w (us.map fun u => mem.get m u.ref)
    if t.2 then leave ka (run mem early n a t.1 m) else leave kb (run mem early n b t.1 m)
  | n + 1, .loop us g a ka, w, m =>
    let t := g w (us.map fun u => mem.get m u.ref)
    if t.2 then
      match leave ka (run mem early n a t.1 m) with
      | some (w, m, .brk) => some (w, m, .normal)
      | some (w, m, _) => run mem early n (.loop us g a ka) w m
      | none => none
    else some (t.1, m, .normal)
  | _ + 1, .exit again, w, m => some (w, m, if again then .cont else .brk)
where
  leave (k : K) : Option (W × M × Exit) → Option (W × M × Exit)
    | some (w, m, e) => some (w, if e = .normal ∨ early then mem.drop m k else m, e)
    | none => none

end Run

/-- The memory of the interpreter: `vars_local` and `vars_global`.  For `slots`, `eval.rs:26-30`. -/
structure Slots (V : Type) where
  locals : List V
  globals : Name → V

/-- For `slots`, `eval.rs:26-30`. -/
def setGlobal {V : Type} (g : Name → V) (n : Name) (v : V) : Name → V := fun k => if k = n then v else g k

/-- The slots `idx .. idx + num` are set to `Variable::default()`, `context.rs:177-195` (a value for which `is_empty`
holds is the default, `src/runtime/mod.rs:117-122`). -/
def fill {V : Type} (empty : V) (idx num : Nat) (l : List V) : List V :=
  if idx + num ≤ l.length then l.take idx ++ List.replicate num empty ++ l.drop (idx + num) else l

/-- `variable` (`eval.rs:26-30`; a missing variable leaves nothing in a string), `set_variable`
(`src/runtime/actions/action_set.rs:42-59`) and `Clear`. -/
def slots {V : Type} (empty : V) : Memory (Slots V) V (Ref Nat) (Option Clear) where
  get m
    | .loc id =>
      match m.locals[id]? with
      | some v => v
      | none => empty
    | .glob n => m.globals n
    | .none => empty
  put m r v :=
    match r with
    | .loc id => { m with locals := m.locals.set id v }
    | .glob n => { m with globals := setGlobal m.globals n v }
    | .none => m
  drop m
    | none => m
    | some c => { m with locals := fill empty c.idx c.num m.locals }

/-- The script as the interpreter runs it: leaving a block by a jump skips the `Clear` at its end.
See `runtime/context.rs:81-441`. -/
def execute {W V : Type} (empty : V) (fuel : Nat) (p : Code W V (Ref Nat) (Option Clear) × Nat) (w : W) (g : Name → V) :
    Option (W × (Name → V)) :=
  (run (slots empty) false fuel p.1 w ⟨List.replicate p.2 empty, g⟩).map fun r => (r.1, r.2.1.globals)

end Sieve.Scope
