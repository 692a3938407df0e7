import Verif.VmModel

/-!
# The compiler's control flow: tests, blocks and jumps

Model of `CompilerState::parse_test` (`src/compiler/grammar/test.rs:123-564`), of the main loop of
`Compiler::compile` (`src/compiler/grammar/instruction.rs:146-828`) and of the instructions emitted
by `parse_vacation` (`src/compiler/grammar/actions/action_vacation.rs:210-225`).

What is abstracted.

* The input is a list of tokens in which an atomic test, an action or an expression is one token
  together with its arguments (and its closing semicolon): `A` is the type of instructions without
  jumps, `T` the type of atomic tests, `E` the type of compiled expressions.
* Argument parsing and capability checks (`validate_argument`) are not modelled, so the model
  accepts more than the code does.
* Error values are not distinguished: `none` is `Err(_)`.
* Whether `block_end` (`instruction.rs:943-962`) emits a `Clear` depends on the variables registered
  in the block (see `ScopeModel`); here a closing brace carries the instruction emitted, if any.
* `usize` positions are `Nat`; the placeholder `usize::MAX` is `maxPos`.
-/

namespace Sieve.Compile

/-- `usize::MAX`, the placeholder of a jump not yet resolved.  For `parseLoop`, `test.rs:133-562`. -/
def maxPos : Nat := 2 ^ 64 - 1

/-- Tokens of the control structure, `src/compiler/lexer/mod.rs:18-34` (`enum Token`, `enum Word`). -/
inductive Tok (A T E : Type) where
  | kif | kelsif | kelse
  /-- `while` and its expression -/
  | kwhile (e : E)
  /-- `foreverypart`, with the label given by `:name` -/
  | kfep (label : Option String)
  /-- `break;`, with the label given by `:name` -/
  | kbreak (label : Option String)
  /-- `continue;` -/
  | kcont
  /-- `return;` -/
  | kret
  /-- `eval "…";` as a command -/
  | keval (e : E)
  /-- any other command, with the instructions it pushes -/
  | act (is : List A)
  /-- `vacation`: its test and its action -/
  | vac (t : T) (a : A)
  | copen
  /-- `}` with the `Clear` that `block_end` emits -/
  | cclose (clear : Option A)
  | comma | popen | pclose
  | knot | kanyof | kallof | ktrue | kfalse
  /-- an atomic test with its arguments -/
  | leaf (t : T)
  /-- `eval "…"` as a test -/
  | ev (e : E)
  /-- an unknown test, ignored by `ignore_test` -/
  | bad (a : A)
  /-- any other token -/
  | other

/-- `Instruction`, `src/compiler/grammar/instruction.rs:48-109`: jumps, tests, and the rest. -/
inductive Op (A T E : Type) where
  | plain (a : A)
  | test (t : T) (isNot : Bool)
  | tru | fls
  /-- `Test::Invalid` -/
  | bad (a : A)
  | eval (e : E) (negated : Bool)
  | jmp (t : Nat)
  | jz (t : Nat)
  | jnz (t : Nat)
  | fepPush
  | fep (jz : Nat)
  | fepPop (n : Nat)
  | loop (e : E) (jz : Nat)
  | ret

variable {A T E : Type}

/-- `Token::Identifier(_) | Token::Unknown(_)`: does the text of this token start with a word?.
For `parseLoop`, `test.rs:133-562`. -/
def Tok.ident : Tok A T E → Bool
  | .copen | .cclose _ | .comma | .popen | .pclose | .other => false
  | _ => true

/-- For `parseLoop`, `test.rs:133-562`. -/
def startsIdent : List (Tok A T E) → Bool
  | t :: _ => t.ident
  | [] => false

/-- `matches!(self.instructions.last(), Some(Instruction::Test(_) | Instruction::Eval(_)))`,
`test.rs:142-145`. -/
def lastIsTest (ops : List (Op A T E)) : Bool :=
  match ops.getLast? with
  | some (.test ..) | some .tru | some .fls | some (.bad _) | some (.eval ..) => true
  | _ => false

/-- `Block` of `parse_test`, `test.rs:115-121`. -/
structure TBlock where
  isAll : Bool
  isNot : Bool
  pCount : Nat
  jmps : List Nat

/-- `set_not`, `test.rs:601-685`. -/
def Op.setNot : Op A T E → Op A T E
  | .tru => .fls
  | .fls => .tru
  | .test t _ => .test t true
  | .eval e _ => .eval e true
  | o => o

/-- Resolving one jump of a test, `test.rs:171-177`.  Positions outside the list (a panic in the
code) do not occur, see `parse_targets`. -/
def setTest (v : Nat) (ops : List (Op A T E)) (p : Nat) : List (Op A T E) :=
  match ops[p]? with
  | some (.jz _) => ops.set p (.jz v)
  | some (.jnz _) => ops.set p (.jnz v)
  | _ => ops

/-- Resolving the jumps at the recorded positions, `test.rs:170-178`. -/
def patchTest (ops : List (Op A T E)) (ps : List Nat) (v : Nat) : List (Op A T E) :=
  ps.foldl (setTest v) ops

/-- `while block.p_count > 0 { expect_token(ParenthesisClose) }`, `test.rs:549-552`. -/
def expectClose : Nat → List (Tok A T E) → Option (List (Tok A T E))
  | 0, ts => some ts
  | n + 1, .pclose :: ts => expectClose n ts
  | _ + 1, _ => none

theorem expectClose_length : ∀ (n : Nat) (ts ts' : List (Tok A T E)), expectClose n ts = some ts' →
    ts'.length ≤ ts.length
  | 0, ts, ts', h => by simp [expectClose] at h; simp [h]
  | n + 1, ts, ts', h => by
    cases ts with
    | nil => simp [expectClose] at h
    | cons t ts =>
      cases t <;> simp [expectClose] at h
      have := expectClose_length n _ _ h
      simp
      omega

/-- What follows `match token_info.token { … }` once an atomic test has been read,
`test.rs:549-561`: closing parentheses, pushing the test.  -/
def atom (t : Tok A T E) (isNot : Bool) : Option (Op A T E × Bool) :=
  match t with
  | .ktrue => some (if isNot then .fls else .tru, false)
  | .kfalse => some (if isNot then .tru else .fls, false)
  | .leaf t => some (if isNot then (Op.test t false).setNot else .test t false, isNot)
  | .ev e => some (if isNot then (Op.eval e false).setNot else .eval e false, isNot)
  | .bad a => some (if isNot then (Op.bad a).setNot else .bad a, isNot)
  | _ => none

/-- The loop of `parse_test`, `test.rs:133-562`; the block stack has its top first.  The result is
the rest of the tokens and the instructions, ending with the unresolved `Jz` (`test.rs:563`). -/
def parseLoop (maxTests : Nat) (ts : List (Tok A T E)) (ops : List (Op A T E)) (b : TBlock)
    (st : List TBlock) (isNot : Bool) : Option (List (Tok A T E) × List (Op A T E)) :=
  match ts with
  | [] => none
  | .comma :: ts =>
    if !st.isEmpty && lastIsTest ops && startsIdent ts then
      parseLoop maxTests ts (ops ++ [if b.isAll then .jz maxPos else .jnz maxPos])
        { b with jmps := b.jmps ++ [ops.length] } st b.isNot
    else none
  | .popen :: ts => parseLoop maxTests ts ops { b with pCount := b.pCount + 1 } st isNot
  | .pclose :: ts =>
    if 0 < b.pCount then parseLoop maxTests ts ops { b with pCount := b.pCount - 1 } st isNot
    else
      match st with
      | [] => none
      | prev :: st =>
        let ops := patchTest ops b.jmps ops.length
        if st.isEmpty then some (ts, ops ++ [.jz maxPos])
        else parseLoop maxTests ts ops prev st prev.isNot
  | .knot :: ts => if startsIdent ts then parseLoop maxTests ts ops b st (!isNot) else none
  | .kanyof :: ts =>
    if st.length < maxTests then
      match ts with
      | .popen :: ts => parseLoop maxTests ts ops ⟨isNot, isNot, 0, []⟩ (b :: st) isNot
      | _ => none
    else none
  | .kallof :: ts =>
    if st.length < maxTests then
      match ts with
      | .popen :: ts => parseLoop maxTests ts ops ⟨!isNot, isNot, 0, []⟩ (b :: st) isNot
      | _ => none
    else none
  | t :: ts =>
    match atom t isNot with
    | none => none
    | some (op, isNot) =>
      match h : expectClose b.pCount ts with
      | none => none
      | some ts' =>
        if st.isEmpty then some (ts', ops ++ [op] ++ [.jz maxPos])
        else parseLoop maxTests ts' (ops ++ [op]) { b with pCount := 0 } st isNot
termination_by ts.length
decreasing_by
  all_goals simp_wf
  all_goals try omega
  have := expectClose_length _ _ _ h
  omega

/-- `CompilerState::parse_test`, `test.rs:124-132`. -/
def parseTest (maxTests : Nat) (ts : List (Tok A T E)) (ops : List (Op A T E)) :
    Option (List (Tok A T E) × List (Op A T E)) :=
  parseLoop maxTests ts ops ⟨false, false, 0, []⟩ [] false

/-- The kinds of blocks (`Block::btype`); `root` is the initial `Word::Not`.  For `Block`, `instruction.rs:114-127`. -/
inductive BType where
  | root | if_ | elsif | else_ | while_ | fep
deriving DecidableEq, Repr

/-- `Block`, `instruction.rs:114-127`, without the variables. -/
structure Block where
  btype : BType
  label : Option String
  lastStart : Nat
  ifJmps : List Nat
  breakJmps : List Nat

/-- `Block::new`, `src/compiler/grammar/instruction.rs:1200-1216`. -/
def Block.new (t : BType) (label : Option String := none) : Block := ⟨t, label, 0, [], []⟩

/-- Limits of the compiler, `src/lib.rs:42-58` (`struct Compiler`). -/
structure Limits where
  blocks : Nat
  tests : Nat
  feps : Nat

/-- `CompilerState`, `instruction.rs:129-143`.  `blocks` is the current block followed by the block
stack, top first. -/
structure State (A T E : Type) where
  ops : List (Op A T E)
  blocks : List Block
  lastType : BType

/-- Resolving one `Jmp`.  For `patchJmp`, `instruction.rs:664-670`. -/
def setJmp (v : Nat) (ops : List (Op A T E)) (p : Nat) : List (Op A T E) :=
  match ops[p]? with
  | some (.jmp _) => ops.set p (.jmp v)
  | _ => ops

/-- Resolving `Jmp`s at recorded positions, `instruction.rs:664-670`, `692-699`, `708-714`,
`727-733`. -/
def patchJmp (ops : List (Op A T E)) (ps : List Nat) (v : Nat) : List (Op A T E) :=
  ps.foldl (setJmp v) ops

/-- Resolving the instruction a block starts with: `Jz` (`instruction.rs:682-688`), `ForEveryPart`
(`657-663`) or `While` (`720-726`). -/
def patchStart (ops : List (Op A T E)) (t : BType) (p v : Nat) : List (Op A T E) :=
  match t, ops[p]? with
  | .fep, some (.fep _) => ops.set p (.fep v)
  | .while_, some (.loop e _) => ops.set p (.loop e v)
  | .if_, some (.jz _) => ops.set p (.jz v)
  | .elsif, some (.jz _) => ops.set p (.jz v)
  | _, _ => ops

/-- Opening a block, `instruction.rs:623-642`. -/
def openBlock (lim : Limits) (s : State A T E) (new : Block) : Option (State A T E) :=
  match s.blocks with
  | [] => none
  | cur :: stack =>
    if stack.length < lim.blocks then
      some { s with blocks := new :: { cur with lastStart := s.ops.length - 1 } :: stack }
    else none

/-- For `findLoop`, `instruction.rs:314-327`. -/
def Block.isLoop (b : Block) : Bool := b.btype = .while_ || b.btype = .fep

/-- Number of enclosing `foreverypart` blocks.  For `round`, `instruction.rs:171-806`. -/
def fepCount (bs : List Block) : Nat := bs.countP (fun b => b.btype = .fep)

/-- The search of `break :name`, `instruction.rs:292-308`: index of the block and number of
`foreverypart` loops left.  `k` is the number of loops passed so far. -/
def findLabel (l : String) : List Block → Nat → Option (Nat × Nat)
  | [], _ => none
  | b :: bs, k =>
    if b.btype = .fep then
      if b.label = some l then some (0, k + 1)
      else (findLabel l bs (k + 1)).map fun (i, n) => (i + 1, n)
    else (findLabel l bs k).map fun (i, n) => (i + 1, n)

/-- The search of a plain `break`, `instruction.rs:314-327`: index of the innermost loop and whether
it is a `foreverypart`. -/
def findLoop : List Block → Option (Nat × Bool)
  | [] => none
  | b :: bs => if b.isLoop then some (0, b.btype = .fep) else (findLoop bs).map fun (i, f) => (i + 1, f)

/-- `block.break_jmps.push(pos)` on the `i`th block.  For `round`, `instruction.rs:171-806`. -/
def addBreak (bs : List Block) (i pos : Nat) : List Block :=
  bs.modify i fun b => { b with breakJmps := b.breakJmps ++ [pos] }

/-- The search of `continue`, `instruction.rs:585-603`: `none` is the error, `some none` accepts
without emitting a jump. -/
def contJump : List Block → Nat → Option (Option Nat)
  | [], found => if found = 2 then some none else none
  | b :: bs, found =>
    if b.btype = .while_ then contJump bs (found + 1)
    else if found = 1 then some (some b.lastStart)
    else contJump bs found

/-- Closing a block, `instruction.rs:647-742`; `next` tells whether the next token is `elsif` or
`else`. -/
def closeBlock (s : State A T E) (clear : Option A) (next : Bool) : Option (State A T E) :=
  match s.blocks with
  | cur :: prev :: stack =>
    let ops := s.ops ++ (clear.toList.map .plain)
    match cur.btype with
    | .fep | .while_ =>
      let ops := ops ++ [.jmp prev.lastStart]
      let ops' := patchStart ops cur.btype prev.lastStart ops.length
      some ⟨patchJmp ops' cur.breakJmps ops.length, prev :: stack, .root⟩
    | .if_ | .elsif =>
      let jmps := if next then prev.ifJmps ++ [ops.length] else prev.ifJmps
      let ops := if next then ops ++ [.jmp maxPos] else ops
      let ops' := patchStart ops cur.btype prev.lastStart ops.length
      if next then some ⟨ops', { prev with ifJmps := jmps } :: stack, cur.btype⟩
      else some ⟨patchJmp ops' jmps ops.length, { prev with ifJmps := [] } :: stack, .root⟩
    | .else_ =>
      some ⟨patchJmp ops prev.ifJmps ops.length, { prev with ifJmps := [] } :: stack, .else_⟩
    | .root => some ⟨ops, prev :: stack, s.lastType⟩
  | _ => none

/-- For `round`, `instruction.rs:171-806`. -/
def isElse : List (Tok A T E) → Bool
  | .kelsif :: _ | .kelse :: _ => true
  | _ => false

/-- One round of the main loop, `instruction.rs:171-806`: the token `t` with the tokens `ts` after
it; the result is the rest of the tokens and the new state. -/
def round (lim : Limits) (s : State A T E) (t : Tok A T E) (ts : List (Tok A T E)) :
    Option (List (Tok A T E) × State A T E) :=
  match t with
  | .kif =>
    match parseTest lim.tests ts s.ops with
    | some (.copen :: ts, ops) =>
      (openBlock lim { s with ops := ops, blocks := s.blocks.modify 0 fun b => { b with ifJmps := [] } }
        (.new .if_)).map (ts, ·)
    | _ => none
  | .kelsif =>
    if s.lastType = .if_ ∨ s.lastType = .elsif then
      match parseTest lim.tests ts s.ops with
      | some (.copen :: ts, ops) => (openBlock lim { s with ops := ops } (.new .elsif)).map (ts, ·)
      | _ => none
    else none
  | .kelse =>
    if s.lastType = .if_ ∨ s.lastType = .elsif then
      match ts with
      | .copen :: ts => (openBlock lim s (.new .else_)).map (ts, ·)
      | _ => none
    else none
  | .kwhile e =>
    match ts with
    | .copen :: ts =>
      (openBlock lim { s with ops := s.ops ++ [.loop e maxPos] } (.new .while_)).map (ts, ·)
    | _ => none
  | .kfep label =>
    if fepCount s.blocks.tail = lim.feps then none
    else if label.isSome ∧ label ∈ s.blocks.tail.map Block.label then none
    else
      match ts with
      | .copen :: ts =>
        (openBlock lim { s with ops := s.ops ++ [.fepPush, .fep maxPos] } (.new .fep label)).map (ts, ·)
      | _ => none
  | .kbreak (some l) =>
    match findLabel l s.blocks 0 with
    | none => none
    | some (i, n) =>
      some (ts, { s with ops := s.ops ++ [.fepPop n, .jmp maxPos],
                         blocks := addBreak s.blocks i (s.ops.length + 1) })
  | .kbreak none =>
    match findLoop s.blocks with
    | none => none
    | some (i, true) =>
      some (ts, { s with ops := s.ops ++ [.fepPop 1, .jmp maxPos],
                         blocks := addBreak s.blocks i (s.ops.length + 1) })
    | some (i, false) =>
      some (ts, { s with ops := s.ops ++ [.jmp maxPos], blocks := addBreak s.blocks i s.ops.length })
  | .kcont =>
    match contJump s.blocks 0 with
    | none => none
    | some none => some (ts, s)
    | some (some p) => some (ts, { s with ops := s.ops ++ [.jmp p] })
  | .kret =>
    let n := fepCount s.blocks
    some (ts, { s with ops := s.ops ++ (if 0 < n then [.fepPop n] else []) ++ [.ret] })
  | .keval e => some (ts, { s with ops := s.ops ++ [.eval e false] })
  | .act is => some (ts, { s with ops := s.ops ++ is.map .plain })
  | .vac t a =>
    some (ts, { s with ops := s.ops ++ [.test t false, .jz (s.ops.length + 3), .plain a] })
  | .cclose clear => (closeBlock s clear (isElse ts)).map (ts, ·)
  | _ => none

/-- The main loop with a bound on the number of rounds (every round consumes a token).
For `compile`, `instruction.rs:146-828`. -/
def rounds (lim : Limits) : Nat → List (Tok A T E) → State A T E → Option (List (Op A T E))
  | _, [], s => if s.blocks.length = 1 then some s.ops else none
  | 0, _ :: _, _ => none
  | n + 1, t :: ts, s =>
    match round lim s t ts with
    | none => none
    | some (ts, s) => rounds lim n ts s

/-- `Compiler::compile`, `instruction.rs:146-828` (without `map_local_vars`, see `ScopeModel`). -/
def compile (lim : Limits) (ts : List (Tok A T E)) : Option (List (Op A T E)) :=
  rounds lim ts.length ts ⟨[], [.new .root], .root⟩

end Sieve.Compile
