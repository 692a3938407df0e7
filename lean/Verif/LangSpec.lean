import Verif.CoreSpec

/-!
# How a script is carried out

Blocks from the top to the bottom, the first branch whose test is true, tests from left to right until one decides: the common part of what
scripts of any language without loops say.  `T n s b s'`: the test `n` is `b` in the state `s`, and the state is `s'` after it.
`D n s s' b`: the command `n` makes `s'` of `s`; `b` says whether the script ends.
-/

namespace Sieve.Lang

open Sieve.Compile

abbrev TestT (F : Type) := TestE (Script.Node F) (Script.Node F) (List UInt8)
abbrev TestsT (F : Type) := Tests (Script.Node F) (Script.Node F) (List UInt8)
abbrev StmtT (F : Type) := Stmt (Script.Node F) (Script.Node F) (List UInt8)
abbrev BlkT (F : Type) := Blk (Script.Node F) (Script.Node F) (List UInt8)
abbrev ChainT (F : Type) := Chain (Script.Node F) (Script.Node F) (List UInt8)

variable {F S : Type} (T : Script.Node F → S → Bool → S → Prop) (D : Script.Node F → S → S → Bool → Prop)

mutual
/-- A test. -/
inductive Evals : TestT F → S → Bool → S → Prop where
  | tru {s} : Evals (.atom .tru) s true s
  | fls {s} : Evals (.atom .fls) s false s
  | leaf {n s b s'} : T n s b s' → Evals (.atom (.leaf n)) s b s'
  | notTrue {e s s'} : Evals e s true s' → Evals (.not e) s false s'
  | notFalse {e s s'} : Evals e s false s' → Evals (.not e) s true s'
  | any {l s b s'} : EvalsAny l s b s' → Evals (.any l) s b s'
  | all {l s b s'} : EvalsAll l s b s' → Evals (.all l) s b s'
/-- `anyof`: until one is true. -/
inductive EvalsAny : TestsT F → S → Bool → S → Prop where
  | one {e s b s'} : Evals e s b s' → EvalsAny (.one e) s b s'
  | decides {e l s s'} : Evals e s true s' → EvalsAny (.cons e l) s true s'
  | next {e l s m b s'} : Evals e s false m → EvalsAny l m b s' → EvalsAny (.cons e l) s b s'
/-- `allof`: until one is false. -/
inductive EvalsAll : TestsT F → S → Bool → S → Prop where
  | one {e s b s'} : Evals e s b s' → EvalsAll (.one e) s b s'
  | decides {e l s s'} : Evals e s false s' → EvalsAll (.cons e l) s false s'
  | next {e l s m b s'} : Evals e s true m → EvalsAll l m b s' → EvalsAll (.cons e l) s b s'
end

/-- Commands one after the other. -/
inductive DoesAll : List (Script.Node F) → S → S → Bool → Prop where
  | nil {s} : DoesAll [] s s false
  | ends {n l s s'} : D n s s' true → DoesAll (n :: l) s s' true
  | cons {n l s m s' b} : D n s m false → DoesAll l m s' b → DoesAll (n :: l) s s' b

mutual
/-- What the script does from one state to another; the flag says whether it has ended. -/
inductive RunStmt : StmtT F → S → S → Bool → Prop where
  | act {l s s' b} : DoesAll D l s s' b → RunStmt (.act l) s s' b
  | cond {c s s' b} : RunChain c s s' b → RunStmt (.cond c) s s' b
  /-- a command on a condition of its own -/
  | vac {t a s m s' b} : T t s true m → D a m s' b → RunStmt (.vac t a) s s' b
  | vacNot {t a s s'} : T t s false s' → RunStmt (.vac t a) s s' false
  | ret {s} : RunStmt .ret s s true
inductive RunBlk : BlkT F → S → S → Bool → Prop where
  | nil {s} : RunBlk .nil s s false
  | ends {c l s s'} : RunStmt c s s' true → RunBlk (.cons c l) s s' true
  | cons {c l s m s' b} : RunStmt c s m false → RunBlk l m s' b → RunBlk (.cons c l) s s' b
/-- The block after the first test that is true, that of `else` if there is none. -/
inductive RunChain : ChainT F → S → S → Bool → Prop where
  | one {e b s m s' f} : Evals T e s true m → RunBlk b m s' f → RunChain (.one e b none) s s' f
  | oneNot {e b s s'} : Evals T e s false s' → RunChain (.one e b none) s s' false
  | els {e b c s m s' f} : Evals T e s true m → RunBlk b m s' f → RunChain (.els e b none c none) s s' f
  | elsNot {e b c s m s' f} : Evals T e s false m → RunBlk c m s' f → RunChain (.els e b none c none) s s' f
  | elif {e b c s m s' f} : Evals T e s true m → RunBlk b m s' f → RunChain (.elif e b none c) s s' f
  | elifNot {e b c s m s' f} : Evals T e s false m → RunChain c m s' f → RunChain (.elif e b none c) s s' f
end

variable (P Q : Script.Node F → Prop)

mutual
/-- All tests are `P`. -/
def TestIn : TestT F → Prop
  | .atom .tru => True
  | .atom .fls => True
  | .atom (.leaf n) => P n
  | .atom _ => False
  | .not e => TestIn e
  | .any l => TestsIn l
  | .all l => TestsIn l
def TestsIn : TestsT F → Prop
  | .one e => TestIn e
  | .cons e l => TestIn e ∧ TestsIn l
end

mutual
/-- Scripts without loops whose tests are `P` and whose commands are `Q`. -/
def StmtIn : StmtT F → Prop
  | .act l => ∀ n ∈ l, Q n
  | .cond c => ChainIn c
  | .vac t a => P t ∧ Q a
  | .ret => True
  | _ => False
def BlkIn : BlkT F → Prop
  | .nil => True
  | .cons c l => StmtIn c ∧ BlkIn l
def ChainIn : ChainT F → Prop
  | .one e b cl => TestIn P e ∧ BlkIn b ∧ cl = none
  | .els e b cl c cl' => TestIn P e ∧ BlkIn b ∧ BlkIn c ∧ cl = none ∧ cl' = none
  | .elif e b cl c => TestIn P e ∧ BlkIn b ∧ ChainIn c ∧ cl = none
end

end Sieve.Lang
