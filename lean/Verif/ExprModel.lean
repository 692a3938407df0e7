import Verif.Prelude

/-!
# Expressions: the parser and the evaluator

Model of `src/compiler/grammar/expr/parser.rs` (`ExpressionParser::parse`), which turns an infix token
sequence into postfix code, and of `Context::eval_expression` (`src/runtime/expression.rs:16-105`), which
runs that code and is suspended when a function of the host is called.

What is abstracted.

* `X` is the type of variables, `K` that of constants (numbers and strings).
* Function names, which occur in error messages only, are left out; errors are not distinguished.
* Stacks are lists with the top first.  `usize`, `u32` are `Nat`, `i32` is `Int`: the saturation of
  `arg_count` is not modelled.
* `unwrap` on an empty stack and indexing out of range are the outcome `panic`.
-/

namespace Sieve.Expr

/-- `BinaryOperator`, `src/compiler/grammar/expr/mod.rs:75-91`. -/
inductive BinOp where
  | add | sub | mul | div | and | or | xor | eq | ne | lt | le | gt | ge
deriving DecidableEq, Repr

/-- `UnaryOperator`, `src/compiler/grammar/expr/mod.rs:102-105`. -/
inductive UnOp where
  | not | minus
deriving DecidableEq, Repr

/-- `Token`, `src/compiler/grammar/expr/mod.rs:108-124`. -/
inductive Tok (X K : Type) where
  | var (x : X)
  | lit (k : K)
  | un (o : UnOp)
  | bin (o : BinOp)
  | func (id numArgs : Nat)
  | popen | pclose | bopen | bclose | comma
deriving DecidableEq, Repr

/-- `Expression`, `src/compiler/grammar/expr/mod.rs:23-32`. -/
inductive Code (X K : Type) where
  | var (x : X)
  | lit (k : K)
  | bin (o : BinOp)
  | un (o : UnOp)
  | jmpIf (val : Bool) (pos : Nat)
  | func (id numArgs : Nat)
  | access
  | build (n : Nat)
deriving DecidableEq, Repr

/-- `parser.rs:19-21`. -/
def idAccess : Nat := 2 ^ 32 - 1
/-- For `incBuild`, `parser.rs:216-222`. -/
def idBuild : Nat := 2 ^ 32 - 2
/-- For `evalLoop`, `expression.rs:17-99`. -/
def idExternal : Nat := 2 ^ 32 - 3

/-- `BinaryOperator::precedence`, `parser.rs:246-256`. -/
def BinOp.prec : BinOp → Nat
  | .mul | .div => 7
  | .add | .sub => 6
  | .gt | .ge | .lt | .le => 5
  | .eq | .ne => 4
  | .xor => 3
  | .and => 2
  | .or => 1

/-- Entries of `operator_stack`, `parser.rs:15`: the tokens that are pushed there, with the position of
the jump of a binary operator. -/
inductive Ent where
  | un (o : UnOp)
  | bin (o : BinOp) (jmp : Option Nat)
  | popen | bopen
  | func (id numArgs : Nat)
deriving DecidableEq, Repr

/-- Outcomes.  For `update`, `parser.rs:232-242`. -/
inductive Res (α : Type) where
  | ok (a : α)
  | err
  | panic
deriving DecidableEq, Repr

/-- For `closeLoop`, `parser.rs:65-79`. -/
def Res.bind {α β : Type} : Res α → (α → Res β) → Res β
  | .ok a, f => f a
  | .err, _ => .err
  | .panic, _ => .panic

variable {X K : Type}

/-- `ExpressionParser`, `parser.rs:9-17`, and the local variable `last_is_var_or_fnc`. -/
structure PState (X K : Type) where
  out : List (Code X K)
  ops : List Ent
  args : List Int
  last : Bool
deriving DecidableEq

/-- `update_jmp_pos`, `parser.rs:232-242`. -/
def update (out : List (Code X K)) : Option Nat → Res (List (Code X K))
  | none => .ok out
  | some j =>
    match out[j]? with
    | some (.jmpIf v _) => .ok (out.set j (.jmpIf v (out.length - j)))
    | some _ => .ok out
    | none => .panic

/-- The array whose items are counted, `parser.rs:216-222`: the entry at index
`operator_stack.len().saturating_sub(2)`, counted from the bottom. -/
def incBuild : List Ent → List Ent
  | a :: .func id n :: r => if id = idBuild then a :: .func id (n + 1) :: r else a :: .func id n :: r
  | [.func id n] => if id = idBuild then [.func id (n + 1)] else [.func id n]
  | r => r

/-- `inc_arg_count`, `parser.rs:213-224`. -/
def inc (s : PState X K) : PState X K :=
  match s.args with
  | [] => s
  | x :: xs => { s with args := (x + 1) :: xs, ops := incBuild s.ops }

/-- `dec_arg_count`, `parser.rs:226-230`. -/
def dec (s : PState X K) : PState X K :=
  match s.args with
  | [] => s
  | x :: xs => { s with args := (x - 1) :: xs }

/-- The loop of a closing parenthesis or bracket, `parser.rs:65-79`. -/
def closeLoop (expect : Ent) : List Ent → List (Code X K) → Res (List Ent × List (Code X K))
  | [], _ => .err
  | e :: ops, out =>
    if e = expect then .ok (ops, out)
    else
      match e with
      | .bin o j => (update out j).bind fun out => closeLoop expect ops (out ++ [.bin o])
      | .un o => closeLoop expect ops (out ++ [.un o])
      | _ => .err

/-- The loop of a binary operator, `parser.rs:113-133`. -/
def binLoop (bop : BinOp) : List Ent → List (Code X K) → Res (List Ent × List (Code X K))
  | .bin o j :: ops, out =>
    if bop.prec ≤ o.prec then (update out j).bind fun out => binLoop bop ops (out ++ [.bin o])
    else .ok (.bin o j :: ops, out)
  | .un o :: ops, out => binLoop bop ops (out ++ [.un o])
  | ops, out => .ok (ops, out)

/-- The loop of a comma, `parser.rs:177-193`. -/
def commaLoop : List Ent → List (Code X K) → Res (List Ent × List (Code X K))
  | .bin o j :: ops, out => (update out j).bind fun out => commaLoop ops (out ++ [.bin o])
  | .un o :: ops, out => commaLoop ops (out ++ [.un o])
  | ops, out => .ok (ops, out)

/-- After the end, `parser.rs:199-208`. -/
def finishLoop : List Ent → List (Code X K) → Res (List (Code X K))
  | [], out => .ok out
  | .bin o j :: ops, out => (update out j).bind fun out => finishLoop ops (out ++ [.bin o])
  | .un o :: ops, out => finishLoop ops (out ++ [.un o])
  | _ :: _, _ => .err

/-- The function or array that a closing parenthesis or bracket ends, `parser.rs:81-107`. -/
def endCall (s : PState X K) : Res (PState X K) :=
  match s.ops with
  | .func id n :: ops =>
    match s.args with
    | [] => .panic
    | got :: args =>
      if got ≠ (n : Int) then .err
      else
        let c := if id = idAccess then .access else if id = idBuild then .build n else .func id n
        .ok { s with ops := ops, args := args, out := s.out ++ [c] }
  | _ => .ok s

/-- A closing parenthesis (`expect` is `popen`) or bracket, `parser.rs:59-110`. -/
def close (s : PState X K) (expect : Ent) : Res (PState X K) :=
  (closeLoop expect s.ops s.out).bind fun r =>
    (endCall { s with ops := r.1, out := r.2 }).bind fun s => .ok { s with last := true }

/-- The jump pushed for `&&` and `||`, `parser.rs:135-146`. -/
def jumpOf : BinOp → Option Bool
  | .and => some false
  | .or => some true
  | _ => none

/-- One round of the loop in `parse`, `parser.rs:39-197`. -/
def pstep (s : PState X K) : Tok X K → Res (PState X K)
  | .var x => let s := inc s; .ok { s with out := s.out ++ [.var x], last := true }
  | .lit k => let s := inc s; .ok { s with out := s.out ++ [.lit k], last := false }
  | .un o => .ok { s with ops := .un o :: s.ops, last := false }
  | .popen => .ok { s with ops := .popen :: s.ops, last := false }
  | .pclose => close s .popen
  | .bclose => close s .bopen
  | .bin o =>
    let s := dec s
    (binLoop o s.ops s.out).bind fun r =>
      match jumpOf o with
      | some v => .ok { s with out := r.2 ++ [.jmpIf v 0], ops := .bin o (some r.2.length) :: r.1, last := false }
      | none => .ok { s with out := r.2, ops := .bin o none :: r.1, last := false }
  | .func id n => let s := inc s; .ok { s with args := 0 :: s.args, ops := .func id n :: s.ops, last := false }
  | .bopen =>
    if s.last then .ok { s with args := 1 :: s.args, ops := .bopen :: .func idAccess 2 :: s.ops, last := false }
    else let s := inc s; .ok { s with args := 0 :: s.args, ops := .bopen :: .func idBuild 0 :: s.ops, last := false }
  | .comma => (commaLoop s.ops s.out).bind fun r => .ok { s with ops := r.1, out := r.2, last := false }

/-- The loop over all tokens.  For `parse`, `parser.rs:36-211`. -/
def psteps (s : PState X K) : List (Tok X K) → Res (PState X K)
  | [] => .ok s
  | t :: ts => (pstep s t).bind fun s => psteps s ts

/-- `ExpressionParser::parse`, `parser.rs:36-211`: the output. -/
def parse (ts : List (Tok X K)) : Res (List (Code X K)) :=
  (psteps ⟨[], [], [], false⟩ ts).bind fun s => finishLoop s.ops s.out

/-! ## Evaluation -/

/-- What `eval_expression` needs to know: variables, constants, operators, functions.
For `evalLoop`, `expression.rs:17-99`. -/
structure Env (X K V : Type) where
  var : X → V
  lit : K → V
  bin : BinOp → V → V → V
  un : UnOp → V → V
  toBool : V → Bool
  /-- `Variable::default()` -/
  dflt : V
  /-- `self.runtime.functions.get(id)` -/
  func : Nat → Option (List V → V)
  /-- `array.get(index)` -/
  access : V → V → V
  build : List V → V

variable {V : Type}

/-- `pop().unwrap_or_default()`.  For `evalLoop`, `expression.rs:17-99`. -/
def pop1 (E : Env X K V) : List V → V × List V
  | [] => (E.dflt, [])
  | v :: st => (v, st)

/-- Popping `n` arguments, the last one first.  For `evalLoop`, `expression.rs:17-99`. -/
def popN (E : Env X K V) : Nat → List V → List V → List V × List V
  | 0, st, acc => (acc, st)
  | n + 1, st, acc => popN E n (pop1 E st).2 ((pop1 E st).1 :: acc)

/-- The result of `eval_expression`: a value, or `Event::Function` with the state (`expr_pos`,
`expr_stack`) that is kept.  The event carries `ID_EXTERNAL - id`.  For `evalLoop`, `expression.rs:17-99`. -/
inductive Eval (V : Type) where
  | done (v : V)
  | call (id : Nat) (args : List V) (pos : Nat) (stack : List V)
deriving DecidableEq

/-- The loop of `eval_expression`, `expression.rs:17-99`: `l` is what remains of the iterator, `pos` is
`expr_pos`. -/
def evalLoop (E : Env X K V) (l : List (Code X K)) (pos : Nat) (st : List V) : Eval V :=
  match l with
  | [] => .done (pop1 E st).1
  | c :: l =>
    match c with
    | .var x => evalLoop E l (pos + 1) (E.var x :: st)
    | .lit k => evalLoop E l (pos + 1) (E.lit k :: st)
    | .un o => evalLoop E l (pos + 1) (E.un o (pop1 E st).1 :: (pop1 E st).2)
    | .bin o =>
      let r := pop1 E st
      let q := pop1 E r.2
      evalLoop E l (pos + 1) (E.bin o q.1 r.1 :: q.2)
    | .func id n =>
      let r := popN E n st []
      match E.func id with
      | some f => evalLoop E l (pos + 1) (f r.1 :: r.2)
      | none => .call (idExternal - id) r.1 (pos + 1) r.2
    | .jmpIf val n =>
      let top := match st with | [] => false | v :: _ => E.toBool v
      if top = val then evalLoop E (l.drop n) (pos + 1 + n) st else evalLoop E l (pos + 1) st
    | .access =>
      let i := pop1 E st
      let a := pop1 E i.2
      evalLoop E l (pos + 1) (E.access a.1 i.1 :: a.2)
    | .build n =>
      let r := popN E n st []
      evalLoop E l (pos + 1) (E.build r.1 :: r.2)
termination_by l.length
decreasing_by all_goals simp; try omega

/-- `eval_expression`, with the state kept from an earlier call.  After a result the state is empty
again (`expression.rs:101-104`). -/
def evalExpr (E : Env X K V) (code : List (Code X K)) (s : Nat × List V) : Eval V :=
  evalLoop E (code.drop s.1) s.1 s.2

end Sieve.Expr
