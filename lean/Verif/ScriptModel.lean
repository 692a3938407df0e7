import Verif.ArgsTable
import Verif.CompileModel

/-!
# Whole scripts: capabilities, blocks and unknown words

Model of what the main loop of `Compiler::compile` (`src/compiler/grammar/instruction.rs:146-828`) and `parse_test`
(`src/compiler/grammar/test.rs:123-564`) do with the tokens of the lexer: `require` and the capabilities of each block
(`src/compiler/grammar/actions/action_require.rs`, `src/compiler/grammar/mod.rs:430-436`), which words are commands and
tests, the end of a command, and skipping what is unknown (`grammar/mod.rs:205-261`).

What is abstracted.

* The result is a list of nodes in which a command or a test is one node together with its arguments (`ArgsModel`).
  What the code does with the structure of tests and blocks, that is the nesting of parentheses, `elsif` and `else`, the
  limits, labels and jumps, is the subject of `CompileModel`, to which `Node.toks` translates.  A script is accepted if
  both accept it (`compileToks`); the code does the two at once.
* Error values are not distinguished: `none` is `Err(_)`.
* `global` registers names (`is_var_local`, the length of the name); see `ScopeModel`.
* The command `test` of `#[cfg(test)]` is left out.
-/

namespace Sieve.Script

open Sieve.Args

variable {F : Type}

/-- What has been recognised.  For `finish`, `grammar/mod.rs:200-203`. -/
inductive Node (F : Type) where
  /-- `require` and the texts it names -/
  | require (names : List (List UInt8))
  /-- `if`, `elsif`, `else`, `continue`, `return`; `not`, `anyof`, `allof`, `true`, `false` -/
  | word (w : Word)
  | foreverypart (label : Option (List UInt8))
  | brk (label : Option (List UInt8))
  | loop (expr : List UInt8)
  /-- another command with its arguments -/
  | cmd (w : Word) (g : Got F)
  /-- another test with its arguments -/
  | test (w : Word) (g : Got F)
  /-- an unknown command, `Instruction::Invalid` -/
  | skip (t : Tok F)
  /-- an unknown test, `Test::Invalid` -/
  | bad (t : Tok F)
  | openB | closeB
  | comma | popen | pclose
deriving DecidableEq

/-- The state: the capabilities of the blocks that are open, the innermost first (`block`, `block_stack`); the number of
`include`; and whether a test is being read.  For `finish`, `grammar/mod.rs:200-203`. -/
structure St where
  caps : List (List Cap)
  includes : Nat
  inTest : Bool

/-- `has_capability`, `grammar/mod.rs:430-436`. -/
def hasCap (x : Ext F) (caps : List (List Cap)) (c : Cap) : Bool :=
  caps.any (·.contains c) || (c ≠ .Ihave && x.noCheck)

/-- `self.block.capabilities.insert(c)`.  For `addCap`, `action_require.rs:15-34`. -/
def insertCap (c : Cap) : List (List Cap) → List (List Cap)
  | b :: bs => (c :: b) :: bs
  | [] => []

/-- `add_capability`, `action_require.rs:15-34`: the new blocks, and what is added to the list of the instruction. -/
def addCap (x : Ext F) (caps : List (List Cap)) (c : Cap) : List (List Cap) × List Cap :=
  if hasCap x caps c then (caps, [])
  else
    let caps' := insertCap c caps
    if c = .SpamTestPlus ∧ hasCap x caps' .SpamTest = false then (insertCap .SpamTest caps', [c, .SpamTest])
    else (caps', [c])

/-- `add_capability` for one name after the other.  For `command`, `instruction.rs:175-633`. -/
def addCaps (x : Ext F) : List (List Cap) → List (List UInt8) → List (List Cap) × List Cap
  | caps, [] => (caps, [])
  | caps, n :: ns =>
    let a := addCap x caps (parseCap n)
    let b := addCaps x a.1 ns
    (b.1, a.2 ++ b.2)

/-- The list of `parse_require`, `action_require.rs:42-63`, after the opening bracket. -/
def readNames (x : Ext F) : List (Tok F) → Option (List (List UInt8) × List (Tok F))
  | t :: .bracketClose :: ts => (constText x t).map fun s => ([s], ts)
  | t :: .comma :: ts =>
    match constText x t, readNames x ts with
    | some s, some (ss, r) => some (s :: ss, r)
    | _, _ => none
  | _ => none

/-- `parse_require`, `action_require.rs:36-92`. -/
def readRequire (x : Ext F) : List (Tok F) → Option (List (List UInt8) × List (Tok F))
  | .bracketOpen :: ts => readNames x ts
  | t :: ts => (constText x t).map fun s => ([s], ts)
  | [] => none

/-- `ignore_instruction`, `grammar/mod.rs:205-231`: what follows. -/
def skipCmd : Nat → List (Tok F) → Option (List (Tok F))
  | _, [] => none
  | 0, .semicolon :: ts => some ts
  | n, .curlyOpen :: ts => skipCmd (n + 1) ts
  | 0, .curlyClose :: _ => none
  | 1, .curlyClose :: ts => some ts
  | n + 2, .curlyClose :: ts => skipCmd (n + 1) ts
  | n, _ :: ts => skipCmd n ts

/-- `ignore_test`, `grammar/mod.rs:233-261`: what follows. -/
def skipTest : Nat → List (Tok F) → List (Tok F)
  | _, [] => []
  | n, .parenOpen :: ts => skipTest (n + 1) ts
  | 0, .parenClose :: ts => .parenClose :: ts
  | n + 1, .parenClose :: ts => skipTest n ts
  | 0, .comma :: ts => .comma :: ts
  | _, .curlyOpen :: ts => .curlyOpen :: ts
  | n, _ :: ts => skipTest n ts

/-- `expect_token(t)`, `src/compiler/lexer/tokenizer.rs:265-272`. -/
def expect (t : Tok F) [DecidableEq F] : List (Tok F) → Option (List (Tok F))
  | u :: ts => if u = t then some ts else none
  | [] => none

variable [DecidableEq F]

/-- `:name` with its label, if it is there, `instruction.rs:263-283`, `306-319`. -/
def readLabel (x : Ext F) : List (Tok F) → Option (Option (List UInt8) × List (Tok F))
  | .tag .Name :: ts => (readStatic x ts).map fun p => (some p.1, p.2)
  | ts => some (none, ts)

/-- For `finish`, `grammar/mod.rs:200-203`. -/
abbrev Out (F : Type) := Option (List (Node F) × St × List (Tok F))

/-- A command that ends with a semicolon: `expect_instruction_end`, `grammar/mod.rs:200-203`. -/
def finish (n : Node F) (s : St) (ts : List (Tok F)) : Out F :=
  (expect .semicolon ts).map fun r => ([n], s, r)

/-- A command that opens a block, `instruction.rs:612-633`. -/
def enter (n : Node F) (s : St) (ts : List (Tok F)) : Out F :=
  (expect .curlyOpen ts).map fun r => ([n, .openB], { s with caps := [] :: s.caps }, r)

/-- An unknown command, `instruction.rs:588-610`, `785-803`. -/
def unknownCmd (x : Ext F) (s : St) (t : Tok F) (ts : List (Tok F)) : Out F :=
  if hasCap x s.caps .Ihave then (skipCmd 0 ts).map fun r => ([.skip t], s, r) else none

/-- The command with the name `w`, `instruction.rs:175-633`. -/
def command (x : Ext F) (s : St) (w : Word) (ts : List (Tok F)) : Out F :=
  let has := hasCap x s.caps
  match w with
  | .Require => (readRequire x ts).bind fun p => finish (.require p.1) { s with caps := (addCaps x s.caps p.1).1 } p.2
  | .If | .ElsIf => some ([.word w], { s with inTest := true }, ts)
  | .Else => enter (.word .Else) s ts
  | .ForEveryPart =>
    if has .ForEveryPart then (readLabel x ts).bind fun p => enter (.foreverypart p.1) s p.2 else none
  | .Break =>
    (readLabel x ts).bind fun p => if p.1.isNone || has .ForEveryPart then finish (.brk p.1) s p.2 else none
  | .While =>
    if has .While then
      (readPos x has .expr ts).bind fun p => match p.1 with | .text e => enter (.loop e) s p.2 | _ => none
    else none
  | .Continue => if has .While then finish (.word .Continue) s ts else none
  | .Return => if has .Include then finish (.word .Return) s ts else none
  | .Include =>
    if s.includes < x.maxIncludes then
      (commandEntry .Include).bind fun e => (readEntry x has .Include e ts).bind fun p =>
        finish (.cmd .Include p.1) { s with includes := s.includes + 1 } p.2
    else none
  | w =>
    match commandEntry w with
    | some e => (readEntry x has w e ts).bind fun p => finish (.cmd w p.1) s p.2
    | none => unknownCmd x s (.ident w) ts

/-- The next token outside of a test, `instruction.rs:171-806`. -/
def cmdStep (x : Ext F) (s : St) (t : Tok F) (ts : List (Tok F)) : Out F :=
  match t with
  | .ident w => command x s w ts
  | .curlyClose => if 1 < s.caps.length then some ([.closeB], { s with caps := s.caps.tail }, ts) else none
  | .unknown n => unknownCmd x s (.unknown n) ts
  | _ => none

/-- The next token of a test, `test.rs:133-564`; the block begins after it, `instruction.rs:612-633`. -/
def testStep (x : Ext F) (s : St) (t : Tok F) (ts : List (Tok F)) : Out F :=
  match t with
  | .curlyOpen => some ([.openB], { s with caps := [] :: s.caps, inTest := false }, ts)
  | .comma => some ([.comma], s, ts)
  | .parenOpen => some ([.popen], s, ts)
  | .parenClose => some ([.pclose], s, ts)
  | .ident w =>
    if w ∈ [Word.Not, .AnyOf, .AllOf, .True, .False] then some ([.word w], s, ts)
    else match testEntry w with
      | some e => (readEntry x (hasCap x s.caps) w e ts).map fun p => ([.test w p.1], s, p.2)
      | none => some ([.bad (.ident w)], s, skipTest 0 ts)
  | .unknown n => some ([.bad (.unknown n)], s, skipTest 0 ts)
  | _ => none

/-- For `go`, `instruction.rs:808-814`. -/
def step (x : Ext F) (s : St) (t : Tok F) (ts : List (Tok F)) : Out F :=
  if s.inTest then testStep x s t ts else cmdStep x s t ts

/-- The loop over the tokens.  Each round takes at least one, so their number is enough fuel.  At the end no block may be
open, `instruction.rs:808-814`. -/
def go (x : Ext F) : Nat → St → List (Tok F) → Option (List (Node F))
  | _, s, [] => if s.inTest || 1 < s.caps.length then none else some []
  | 0, _, _ :: _ => none
  | n + 1, s, t :: ts =>
    (step x s t ts).bind fun p => (go x n p.2.1 p.2.2).map fun rest => p.1 ++ rest

/-- The nodes of a script.  For `compileToks`, `instruction.rs:146-828`. -/
def script (x : Ext F) (ts : List (Tok F)) : Option (List (Node F)) := go x ts.length ⟨[[]], 0, false⟩ ts

/-! ## The tokens of `CompileModel` -/

/-- Labels are compared byte by byte.  For `compileToks`, `instruction.rs:146-828`. -/
def label (s : List UInt8) : String := String.ofList (s.map fun c => Char.ofNat c.toNat)

/-- The token of the control structure for a node; instructions, tests and expressions stand for themselves.
For `compileToks`, `instruction.rs:146-828`. -/
def Node.tok : Node F → Compile.Tok (Node F) (Node F) (List UInt8)
  | .word .If => .kif
  | .word .ElsIf => .kelsif
  | .word .Else => .kelse
  | .word .Continue => .kcont
  | .word .Return => .kret
  | .word .Not => .knot
  | .word .AnyOf => .kanyof
  | .word .AllOf => .kallof
  | .word .True => .ktrue
  | .word .False => .kfalse
  | .word _ => .other
  | .require names => .act [.require names]
  | .foreverypart l => .kfep (l.map label)
  | .brk l => .kbreak (l.map label)
  | .loop e => .kwhile e
  | .cmd .Eval g => match g.pos with | [.text e] => .keval e | _ => .other
  | .cmd .Vacation g => .vac (.cmd .Vacation g) (.cmd .Vacation g)
  | .cmd w g => .act [.cmd w g]
  | .test .Eval g => match g.pos with | [.text e] => .ev e | _ => .other
  | .test w g => .leaf (.test w g)
  | .skip t => .act [.skip t]
  | .bad t => .bad (.bad t)
  | .openB => .copen
  | .closeB => .cclose none
  | .comma => .comma
  | .popen => .popen
  | .pclose => .pclose

/-- `Compiler::compile`, `instruction.rs:146-828`, from the tokens of the lexer. -/
def compileToks (x : Ext F) (lim : Compile.Limits) (ts : List (Tok F)) :
    Option (List (Compile.Op (Node F) (Node F) (List UInt8))) :=
  (script x ts).bind fun ns => Compile.compile lim (ns.map Node.tok)

end Sieve.Script
