import Verif.VarsModel
import Verif.CoreSpec
import Verif.SetProps
import Verif.StringSpec

/-!
# What a script with variables says

RFC 5229 on top of `CoreSpec`: variables have values, by their names in any case; a variable that has not been set is empty; `set` gives a
variable the value of a string, changed by the modifiers in the order of their precedence and cut to the limit; all arguments are read
with the values of that moment.  No instructions, no slots.
-/

namespace Sieve.Vars

open Sieve.Args Sieve.Fields Sieve.Compile

variable {W V F N : Type} [DecidableEq F]

/-! ## Strings -/

/-- `${n}`: the variable of that name, in any case; nothing if there is none.  Match variables and namespaces are not part of the language. -/
def Refers (names : List Name) (w : List UInt8) (o : Option (List (Str.Piece Name))) : Prop :=
  ∃ n, Str.IsName n ∧ w = [36, 123] ++ n ++ [125] ∧
    ((((∀ c ∈ n, 48 ≤ c ∧ c ≤ 57) ∨ 46 ∈ n) ∧ o = none) ∨
      ((∃ c ∈ n, ¬ (48 ≤ c ∧ c ≤ 57)) ∧ 46 ∉ n ∧
        ((lower n ∈ names ∧ o = some [.value (lower n)]) ∨ (lower n ∉ names ∧ o = some []))))

/-- The pieces of a string: encoded characters are replaced first, references second. -/
def Read (names : List Name) (s : List UInt8) (sg : List (Str.Piece Name)) : Prop :=
  ∃ d, Str.Decoded s d ∧ Str.Replaced (Refers names) .byte d sg

/-- The text of a variable; there is none for what is no variable. -/
def heldText (H : Host W F N) (w : W) (σ : Store F) (n : Name) : List UInt8 :=
  match σ n with
  | some r => (H.core.env w).x.utf8 (Tests.text (H.core.env w).x.flt r)
  | none => []

/-- The value of an argument: strings with references as `string_says_partial` and `reference_says` have it, all others as without variables. -/
def value (H : Host W F N) (q : Store F × W) : Val F → Expr.Val F
  | .var s => H.eval q.1 q.2 (.var s)
  | v => (H.core.env q.2).eval v

/-- What commands and tests see: arguments have the values of the moment, all else is as without variables. -/
def seen (H : Host W F N) : Core.Host (Store F × W) F N where
  env := fun q => { H.core.env q.2 with eval := value H q }
  fuel := fun q => H.core.fuel q.2
  size := fun q => H.core.size q.2
  user := fun q => H.core.user q.2
  time := H.core.time
  flagText := fun q => H.core.flagText q.2
  received := fun q => H.core.received q.2
  caps := H.core.caps

/-! ## Tests -/

/-- The test `w` with the arguments `g` is true of a message with the parts `t`. -/
def IsTrue [DecidableEq N] (env : Written.Env F N) (size : Nat) (t : Mime.Tree) : Word → Got F → Prop
  | .String, g => ∃ ss k, g.pos = [.vals ss, .vals [k]] ∧ ∃ s ∈ ss, Written.Meets env.x g (.val (env.eval s)) (.val (env.eval k))
  | w, g => Core.IsTrue env size t w g

/-- All strings are accepted by the compiler, and all references in them are to variables by their names. -/
def Reads (H : Host W F N) : Arg F → Prop
  | .val v => ∀ s, v = .var s → Str.tokenize H.strs true s ≠ none
  | .vals vs => ∀ s, .var s ∈ vs → Str.tokenize H.strs true s ≠ none
  | .pair a b => (∀ s, a = .var s → Str.tokenize H.strs true s ≠ none) ∧ ∀ s, b = .var s → Str.tokenize H.strs true s ≠ none
  | _ => True

def Accepts (H : Host W F N) (g : Got F) : Prop := (∀ a ∈ g.pos, Reads H a) ∧ ∀ p ∈ g.tags, Reads H p.2

/-- Tests of the language; of the keys of `string` all but the last are without effect (C118), so there is one. -/
def Test : Script.Node F → Prop
  | .test .String g => Written.Comparing g ∧ ∃ ss k, g.pos = [.vals ss, .vals [k]]
  | n => Core.Test n

mutual
def VarTestE (H : Host W F N) : TestE (Script.Node F) (Script.Node F) (List UInt8) → Prop
  | .atom .tru => True
  | .atom .fls => True
  | .atom (.leaf n) => Accepts H (Core.got n) ∧ Test n
  | .atom _ => False
  | .not e => VarTestE H e
  | .any l => VarTests H l
  | .all l => VarTests H l
def VarTests (H : Host W F N) : Tests (Script.Node F) (Script.Node F) (List UInt8) → Prop
  | .one e => VarTestE H e
  | .cons e l => VarTestE H e ∧ VarTests H l
end

/-! ## Commands -/

/-- The variables, the actions so far, and the number of times the message was sent. -/
structure St (F : Type) where
  vars : Store F
  core : Core.St

/-- The modifier is among the tags of `set`. -/
inductive Asks (g : Got F) : SetVar.Modifier → Prop where
  | lower : Uses g .Lower → Asks g .lower
  | upper : Uses g .Upper → Asks g .upper
  | lowerFirst : Uses g .LowerFirst → Asks g .lowerFirst
  | upperFirst : Uses g .UpperFirst → Asks g .upperFirst
  | quoteWildcard : Uses g .QuoteWildcard → Asks g .quoteWildcard
  | quoteRegex : Uses g .QuoteRegex → Asks g .quoteRegex
  | encodeUrl : Uses g .EncodeUrl → Asks g .encodeUrl
  | length : Uses g .Length → Asks g .length

/-- Modifiers one after the other; what each of them does is the subject of C44 and C114. -/
inductive Changed (A : Expr.Flt F) (x : SetVar.Ext) (max : Nat) : List SetVar.Modifier → Expr.Val F → Expr.Val F → Prop where
  | nil {v} : Changed A x max [] v v
  | cons {m ms v r} : Changed A x max ms (.str (m.apply x max (Tests.text A v))) r → Changed A x max (m :: ms) v r

/-- The room that a value takes, as the limit counts it: a text its bytes, a number 2, a list those of its items with 2 more for each. -/
inductive Takes : Expr.Val F → Nat → Prop where
  | str {s} : Takes (.str s) (s.map Char.utf8Size).sum
  | int {n} : Takes (.int n) 2
  | flt {f} : Takes (.flt f) 2
  | nil : Takes (.arr []) 0
  | cons {v l n m} : Takes v n → Takes (.arr l) m → Takes (.arr (v :: l)) (n + 2 + m)

/-- A value cut to the limit of variables: texts to their longest prefix, numbers are stored as they are. -/
inductive Limited (A : Expr.Flt F) (max : Nat) : Expr.Val F → Expr.Val F → Prop where
  | str {s t} : LongestPrefix max s t → Limited A max (.str s) (.str t)
  | int {n} : Limited A max (.int n) (.int n)
  | flt {f} : Limited A max (.flt f) (.flt f)
  | arr {l n} : Takes (.arr l) n → n ≤ max → Limited A max (.arr l) (.arr l)
  | long {l n t} : Takes (.arr l) n → max < n → LongestPrefix max (Tests.text A (.arr l)) t → Limited A max (.arr l) (.str t)

/-- `set` with the arguments `g` makes `r` of the value `v`. -/
def SetTo (A : Expr.Flt F) (x : SetVar.Ext) (max : Nat) (g : Got F) (v r : Expr.Val F) : Prop :=
  ∃ ms c, (∀ m, m ∈ ms ↔ Asks g m) ∧ ms.Nodup ∧ ms.Pairwise (fun a b => SetVar.precedence b ≤ SetVar.precedence a) ∧
    Changed A x max ms v c ∧ Limited A max c r

/-- One command; the flag says whether the script ends. -/
inductive Does (H : Host W F N) (cfg : Vm.Cfg W V Core.Place) (w : W) : Script.Node F → St F → St F → Bool → Prop where
  | core {n s c b} : Core.Does (seen H) cfg (s.vars, w) n s.core c b → Does H cfg w n s { s with core := c } b
  | set {g s n v r} : g.pos = [.text n, .val v] →
      SetTo (H.core.env w).x.flt H.mod H.max g (value H (s.vars, w) v) r →
      Does H cfg w (.cmd .Set g) s { s with vars := fun m => if m = lower n then some r else s.vars m } false

/-- Commands of the language, whose extensions are allowed. -/
def VarCmd (H : Host W F N) (cfg : Vm.Cfg W V Core.Place) (n : Script.Node F) : Prop :=
  Accepts H (Core.got n) ∧
    match n with
    | .cmd .Set g => ¬ Uses g .Replace ∧ ∃ n v, g.pos = [.text n, .val v] ∧ lower n ∈ H.names
    | n => Core.Command (seen H) cfg n

/-- Commands one after the other. -/
inductive DoesAll (H : Host W F N) (cfg : Vm.Cfg W V Core.Place) (w : W) : List (Script.Node F) → St F → St F → Bool → Prop where
  | nil {s} : DoesAll H cfg w [] s s false
  | ends {n l s s'} : Does H cfg w n s s' true → DoesAll H cfg w (n :: l) s s' true
  | cons {n l s m s' b} : Does H cfg w n s m false → DoesAll H cfg w l m s' b → DoesAll H cfg w (n :: l) s s' b

/-- A test is true with the values `σ` of the variables. -/
abbrev HoldsIn [DecidableEq N] (H : Host W F N) (w : W) (t : Mime.Tree) (σ : Store F)
    (e : TestE (Script.Node F) (Script.Node F) (List UInt8)) : Prop :=
  Core.Holds (IsTrue ((seen H).env (σ, w)) (H.core.size w) t) e

mutual
/-- What the script does from one state to another; the flag says whether it has ended. -/
inductive RunStmt [DecidableEq N] (H : Host W F N) (cfg : Vm.Cfg W V Core.Place) (w : W) (t : Mime.Tree) :
    Stmt (Script.Node F) (Script.Node F) (List UInt8) → St F → St F → Bool → Prop where
  | act {l s s' b} : DoesAll H cfg w l s s' b → RunStmt H cfg w t (.act l) s s' b
  | cond {c s s' b} : RunChain H cfg w t c s s' b → RunStmt H cfg w t (.cond c) s s' b
inductive RunBlk [DecidableEq N] (H : Host W F N) (cfg : Vm.Cfg W V Core.Place) (w : W) (t : Mime.Tree) :
    Whole.Prog F → St F → St F → Bool → Prop where
  | nil {s} : RunBlk H cfg w t .nil s s false
  | ends {c l s s'} : RunStmt H cfg w t c s s' true → RunBlk H cfg w t (.cons c l) s s' true
  | cons {c l s m s' b} : RunStmt H cfg w t c s m false → RunBlk H cfg w t l m s' b → RunBlk H cfg w t (.cons c l) s s' b
/-- The block after the first test that is true, that of `else` if there is none. -/
inductive RunChain [DecidableEq N] (H : Host W F N) (cfg : Vm.Cfg W V Core.Place) (w : W) (t : Mime.Tree) :
    Chain (Script.Node F) (Script.Node F) (List UInt8) → St F → St F → Bool → Prop where
  | one {e b s s' f} : HoldsIn H w t s.vars e → RunBlk H cfg w t b s s' f → RunChain H cfg w t (.one e b none) s s' f
  | oneNot {e b s} : ¬ HoldsIn H w t s.vars e → RunChain H cfg w t (.one e b none) s s false
  | els {e b c s s' f} : HoldsIn H w t s.vars e → RunBlk H cfg w t b s s' f → RunChain H cfg w t (.els e b none c none) s s' f
  | elsNot {e b c s s' f} : ¬ HoldsIn H w t s.vars e → RunBlk H cfg w t c s s' f → RunChain H cfg w t (.els e b none c none) s s' f
  | elif {e b c s s' f} : HoldsIn H w t s.vars e → RunBlk H cfg w t b s s' f → RunChain H cfg w t (.elif e b none c) s s' f
  | elifNot {e b c s s' f} : ¬ HoldsIn H w t s.vars e → RunChain H cfg w t c s s' f → RunChain H cfg w t (.elif e b none c) s s' f
end

mutual
/-- Scripts of the language. -/
def VarStmt (H : Host W F N) (cfg : Vm.Cfg W V Core.Place) : Stmt (Script.Node F) (Script.Node F) (List UInt8) → Prop
  | .act l => ∀ n ∈ l, VarCmd H cfg n
  | .cond c => VarChain H cfg c
  | _ => False
def VarBlk (H : Host W F N) (cfg : Vm.Cfg W V Core.Place) : Blk (Script.Node F) (Script.Node F) (List UInt8) → Prop
  | .nil => True
  | .cons c l => VarStmt H cfg c ∧ VarBlk H cfg l
def VarChain (H : Host W F N) (cfg : Vm.Cfg W V Core.Place) : Chain (Script.Node F) (Script.Node F) (List UInt8) → Prop
  | .one e b cl => VarTestE H e ∧ VarBlk H cfg b ∧ cl = none
  | .els e b cl c cl' => VarTestE H e ∧ VarBlk H cfg b ∧ VarBlk H cfg c ∧ cl = none ∧ cl' = none
  | .elif e b cl c => VarTestE H e ∧ VarBlk H cfg b ∧ VarChain H cfg c ∧ cl = none
end

/-- Before the script: the variables that it sets are empty. -/
def start (H : Host W F N) : St F := ⟨fun n => open Classical in if n ∈ H.names then some (.str []) else none, 0, []⟩

end Sieve.Vars
