import Verif.BlockCompile
import Verif.VmSession

/-!
# Structured scripts as programs

What a script made of commands, `if`, `while`, `foreverypart`, `break`, `continue` and `return` does,
defined on its structure: no positions, no jumps, no negated tests.  A running script is a list of
things still to be done (`Item`); `break`, `continue` and `return` drop items.

Single commands, tests and expressions have the meaning the interpreter gives to the instruction
(`Sieve.Vm.exec`); the interplay with the host (`SHist`) is that of `Sieve.Vm.Hist`.

`SourceProps` shows that the interpreter, running the code that the compiler emits, does the same.
-/

namespace Sieve.Source

open Sieve.Vm Sieve.Compile

variable {W V P A T E : Type}

/-- Instructions that neither jump nor set the test result.  See `compiler/grammar/instruction.rs:48-109`. -/
def Plain : Instr W V P → Prop
  | .jz _ | .jnz _ | .jmp _ | .test _ | .eval _ | .forEveryPart _ | .forEveryPartPush
  | .forEveryPartPop _ | .while _ _ | .return_ => False
  | _ => True

/-- What the instructions of the compiler mean to the interpreter.  See `compiler/grammar/instruction.rs:48-109`. -/
structure Interp (cfg : Cfg W V P) (A T E : Type) where
  act : A → Instr W V P
  plain : ∀ a, Plain (act a)
  test : T → View W V → TestOut W V P
  expr : E → View W V → ExprOut W V P
  bad : A → P
  /-- the unary operator `!` of expressions, `src/runtime/expression.rs` -/
  notV : V → V
  not_spec : ∀ v, cfg.toBool (notV v) = !cfg.toBool v

variable {cfg : Cfg W V P}

/-- A test that always has the same result (`Test::True`, `Test::False`).  See `compiler/grammar/instruction.rs:48-109`. -/
def constTest (b : Bool) (v : View W V) : TestOut W V P := ⟨.bool b, v.matchv, v.world, false⟩

/-- See `compiler/grammar/instruction.rs:48-109`. -/
def TestRes.neg : TestRes P → TestRes P
  | .bool b => .bool (!b)
  | .event p n => .event p (!n)
  | .error p => .error p

/-- A test with `is_not` set: `TestResult::Bool(result ^ is_not)` and
`TestResult::Event { is_not, .. }` in `src/runtime/tests/mod.rs:39-120`. -/
def negTest (neg : Bool) (f : View W V → TestOut W V P) (v : View W V) : TestOut W V P :=
  if neg then { f v with res := TestRes.neg (f v).res } else f v

/-- An expression with `!` appended, `src/compiler/grammar/test.rs:640-645`. -/
def negExpr (notV : V → V) (neg : Bool) (f : View W V → ExprOut W V P) (v : View W V) : ExprOut W V P :=
  if neg then
    match f v with
    | .done x w => .done (notV x) w
    | .call p w => .call p w
  else f v

/-- The instruction of the interpreter an instruction of the compiler stands for.
See `compiler/grammar/instruction.rs:48-109`. -/
def Interp.lower (I : Interp cfg A T E) : Op A T E → Instr W V P
  | .plain a => I.act a
  | .test t n => .test (negTest n (I.test t))
  | .tru => .test (constTest true)
  | .fls => .test (constTest false)
  | .bad a => .invalid (I.bad a)
  | .eval e n => .eval (negExpr I.notV n (I.expr e))
  | .jmp t => .jmp t
  | .jz t => .jz t
  | .jnz t => .jnz t
  | .fepPush => .forEveryPartPush
  | .fep t => .forEveryPart t
  | .fepPop n => .forEveryPartPop n
  | .loop e t => .while (I.expr e) t
  | .ret => .return_

/-! ## Things to be done -/

/-- See `runtime/context.rs:124-441`. -/
inductive Item (A T E : Type) where
  /-- the rest of a block -/
  | blk (b : Blk A T E)
  /-- the rest of a command -/
  | ops (is : List A)
  | ev (e : E)
  /-- find the value of a test -/
  | test (e : TestE A T E)
  /-- find the value of `allof` or `anyof` -/
  | tests (isAll : Bool) (l : Tests A T E)
  /-- negate the value just found -/
  | neg
  /-- go on with the list unless the value just found decides -/
  | more (isAll : Bool) (l : Tests A T E)
  /-- choose a branch by the value just found -/
  | branch (c : Chain A T E)
  /-- the vacation action, if the value just found is true -/
  | vac (a : A)
  /-- evaluate the loop condition -/
  | loop (e : E) (b : Blk A T E) (cl : Option A)
  /-- take the next part -/
  | parts (label : Option String) (b : Blk A T E) (cl : Option A)
  /-- end of a block -/
  | clear (cl : Option A)

/-- See `runtime/context.rs:124-441`. -/
abbrev Todo (A T E : Type) := List (Item A T E)

/-- Leaving a `foreverypart` loop: the part and the remaining parts of the loop around it.
See `runtime/context.rs:124-441`. -/
def leaveParts (c : Ctx W V P) : Ctx W V P :=
  match c.partStack with
  | [] => c
  | (p, it) :: rest => { c with part := p, partIter := it, partStack := rest }

/-- `break`: up to and including the innermost loop.  See `runtime/context.rs:124-441`. -/
def breakOut : Todo A T E → Ctx W V P → Todo A T E × Ctx W V P
  | [], c => ([], c)
  | .loop _ _ _ :: K, c => (K, c)
  | .parts _ _ _ :: K, c => (K, leaveParts c)
  | _ :: K, c => breakOut K c

/-- `break :name`: up to and including the innermost `foreverypart` loop with that label.
See `runtime/context.rs:124-441`. -/
def breakTo (l : String) : Todo A T E → Ctx W V P → Todo A T E × Ctx W V P
  | [], c => ([], c)
  | .parts l' _ _ :: K, c => if l' = some l then (K, leaveParts c) else breakTo l K (leaveParts c)
  | _ :: K, c => breakTo l K c

/-- `continue`: up to the innermost `while` loop.  See `runtime/context.rs:124-441`. -/
def continueTo : Todo A T E → Ctx W V P → Todo A T E × Ctx W V P
  | [], c => ([], c)
  | .loop e b cl :: K, c => (.loop e b cl :: K, c)
  | .parts _ _ _ :: K, c => continueTo K (leaveParts c)
  | _ :: K, c => continueTo K c

/-- `return`: all loops are left.  See `runtime/context.rs:124-441`. -/
def leaveAll : Todo A T E → Ctx W V P → Ctx W V P
  | [], c => c
  | .parts _ _ _ :: K, c => leaveAll K (leaveParts c)
  | _ :: K, c => leaveAll K c

/-- The test of the first branch.  See `runtime/context.rs:124-441`. -/
def Chain.test : Chain A T E → TestE A T E
  | .one t _ _ => t
  | .els t _ _ _ _ => t
  | .elif t _ _ _ => t

/-- What to do after the test of a chain.  See `runtime/context.rs:124-441`. -/
def choose : Chain A T E → Bool → Todo A T E
  | .one _ b cl, true | .els _ b cl _ _, true | .elif _ b cl _, true => [.blk b, .clear cl]
  | .one _ _ _, false => []
  | .els _ _ _ e cl', false => [.blk e, .clear cl']
  | .elif _ _ _ c, false => [.test (Chain.test c), .branch c]

/-- What an atomic test executes.  See `compiler/grammar/instruction.rs:48-109`. -/
def Interp.atom (I : Interp cfg A T E) : Atom A T E → Instr W V P
  | .tru => .test (constTest true)
  | .fls => .test (constTest false)
  | .leaf t => .test (I.test t)
  | .ev e => .eval (I.expr e)
  | .bad a => .invalid (I.bad a)

/-- Running scripts: for each active script what is still to be done, and the interpreter's state.
See `runtime/context.rs:124-441`. -/
structure Conf (W V P A T E : Type) where
  todo : List (Todo A T E)
  ctx : Ctx W V P

/-- See `runtime/context.rs:124-441`. -/
inductive SStep (W V P A T E : Type) where
  | cont (s : Conf W V P A T E)
  | ret (o : Out P) (s : Conf W V P A T E)

/-- After the script stack has changed: no script is left, or one has been added.  See `runtime/context.rs:124-441`. -/
def sync (src : Script W V P → Blk A T E) (ks : List (Todo A T E)) (st : List (Frame W V P)) : List (Todo A T E) :=
  match st with
  | [] => []
  | fr :: _ => if st.length = ks.length + 1 then [.blk (src fr.script)] :: ks else ks

/-- Does evaluating the expression of this instruction call a host function?  (Then the instruction
is executed again when the host has answered.)  See `runtime/context.rs:124-441`. -/
def suspends (i : Instr W V P) (v : View W V) : Bool :=
  match i with
  | .let_ _ f | .eval f =>
    match f v with
    | .call _ _ => true
    | .done _ _ => false
  | _ => false

/-- Executing an instruction: `again` is what is to be done if it is suspended, `next` otherwise.
See `runtime/context.rs:124-441`. -/
def perform (cfg : Cfg W V P) (src : Script W V P → Blk A T E) (again next : Todo A T E) (ks : List (Todo A T E))
    (c : Ctx W V P) (i : Instr W V P) : SStep W V P A T E :=
  let ks := (if suspends i c.view then again else next) :: ks
  match exec cfg c i with
  | .cont c => .cont ⟨sync src ks c.stack, c⟩
  | .ret o c => .ret o ⟨sync src ks c.stack, c⟩

/-- One step.  See `runtime/context.rs:124-441`. -/
def sstep (I : Interp cfg A T E) (src : Script W V P → Blk A T E) (s : Conf W V P A T E) : SStep W V P A T E :=
  match s.todo with
  | [] => .ret .none s
  | [] :: ks =>
    -- the end of a script
    match leave cfg s.ctx with
    | .cont c => .cont ⟨ks, c⟩
    | .ret o c => .ret o ⟨[], c⟩
  | (x :: K) :: ks =>
    let go (K : Todo A T E) (c : Ctx W V P) : SStep W V P A T E := .cont ⟨K :: ks, c⟩
    let c := s.ctx
    match x with
    | .blk .nil => go K c
    | .blk (.cons st b) =>
      let K := .blk b :: K
      match st with
      | .act is => go (.ops is :: K) c
      | .eval e => go (.ev e :: K) c
      | .vac t a => go (.test (.atom (.leaf t)) :: .vac a :: K) c
      | .cond ch => go (.test (Chain.test ch) :: .branch ch :: K) c
      | .loop e b cl => go (.loop e b cl :: K) c
      | .parts l b cl => go (.parts l b cl :: K)
          { c with partIter := cfg.nested c.world c.part c.partStack.isEmpty
                   partStack := (c.part, c.partIter) :: c.partStack }
      | .brk none => go (breakOut K c).1 (breakOut K c).2
      | .brk (some l) => go (breakTo l K c).1 (breakTo l K c).2
      | .cont => go (continueTo K c).1 (continueTo K c).2
      | .ret => go [] (leaveAll K c)
    | .ops [] => go K c
    | .ops (a :: is) => perform cfg src (.ops (a :: is) :: K) (.ops is :: K) ks c (I.act a)
    | .ev e => perform cfg src (.ev e :: K) K ks c (.eval (I.expr e))
    | .test (.atom a) => perform cfg src (.test (.atom a) :: K) K ks c (I.atom a)
    | .test (.not e) => go (.test e :: .neg :: K) c
    | .test (.any l) => go (.tests false l :: K) c
    | .test (.all l) => go (.tests true l :: K) c
    | .tests _ (.one e) => go (.test e :: K) c
    | .tests isAll (.cons e l) => go (.test e :: .more isAll l :: K) c
    | .neg => go K { c with testResult := !c.testResult }
    | .more isAll l => if c.testResult = isAll then go (.tests isAll l :: K) c else go K c
    | .branch ch => go (choose ch c.testResult ++ K) c
    | .vac a => if c.testResult then go (.ops [a] :: K) c else go K c
    | .loop e b cl =>
      match I.expr e c.view with
      | .call p w => .ret (.event (.function p)) ⟨(.loop e b cl :: K) :: ks, { c with world := w }⟩
      | .done v w =>
        if cfg.toBool v then go (.blk b :: .clear cl :: .loop e b cl :: K) { c with world := w }
        else go K { c with world := w }
    | .parts l b cl =>
      match c.partIter with
      | p :: it => go (.blk b :: .clear cl :: .parts l b cl :: K) { c with part := p, partIter := it }
      | [] => go K (leaveParts c)
    | .clear none => go K c
    | .clear (some a) => go (.ops [a] :: K) c

/-! ## Sessions -/

/-- Inputs and outputs.  See `runtime/context.rs:81-441`. -/
inductive IO (W V P : Type) where
  | input (i : Input W V P)
  | output (o : Out P)

/-- The inputs and outputs of a session of the interpreter.  See `runtime/context.rs:81-441`. -/
def io (h : List (Label W V P)) : List (IO W V P) :=
  h.filterMap fun | .input i => some (.input i) | .output o => some (.output o) | .pass _ => none

/-- See `runtime/context.rs:81-441`. -/
inductive SMode (W V P A T E : Type) where
  | waiting (s : Conf W V P A T E)
  | running (s : Conf W V P A T E)

/-- The host's input.  See `runtime/context.rs:81-441`. -/
def feed (cfg : Cfg W V P) (src : Script W V P → Blk A T E) (s : Conf W V P A T E) (i : Input W V P) :
    Conf W V P A T E :=
  ⟨sync src s.todo (applyInput cfg s.ctx i).stack, applyInput cfg s.ctx i⟩

/-- Sessions with structured scripts: as `Sieve.Vm.Hist`.  See `runtime/context.rs:81-441`. -/
inductive SHist (I : Interp cfg A T E) (src : Script W V P → Blk A T E) (w : W) :
    List (IO W V P) → SMode W V P A T E → Prop where
  | start : SHist I src w [] (.waiting ⟨[], Ctx.new w⟩)
  | feedRet {h s i o c} : SHist I src w h (.waiting s) → enter (feed cfg src s i).ctx = .ret o c →
      SHist I src w (h ++ [.input i, .output o]) (.waiting ⟨(feed cfg src s i).todo, c⟩)
  | feedGo {h s i c} : SHist I src w h (.waiting s) → enter (feed cfg src s i).ctx = .cont c →
      SHist I src w (h ++ [.input i]) (.running ⟨(feed cfg src s i).todo, c⟩)
  | step {h s s'} : SHist I src w h (.running s) → sstep I src s = .cont s' → SHist I src w h (.running s')
  | ret {h s o s'} : SHist I src w h (.running s) → sstep I src s = .ret o s' →
      SHist I src w (h ++ [.output o]) (.waiting s')
  /-- the limit of instructions (C11) ends all scripts, as any other error does -/
  | cut {h s} : SHist I src w h (.running s) →
      SHist I src w (h ++ [.output (.error .cpuLimit)]) (.waiting ⟨[], finishLoop cfg s.ctx⟩)

end Sieve.Source
