import Verif.ExprModel

/-!
# Expressions: grammar and meaning

Expression trees, the grammar that relates token sequences to trees (one level per precedence), and the
meaning of a tree.  Nothing here mentions operator stacks, postfix code or jumps.
-/

namespace Sieve.Expr

mutual
/-- Expression trees. -/
inductive Ex (X K : Type) where
  | var (x : X)
  | lit (k : K)
  | un (o : UnOp) (e : Ex X K)
  | bin (o : BinOp) (a b : Ex X K)
  | call (id : Nat) (es : Exs X K)
  | index (a i : Ex X K)
  | build (es : Exs X K)
inductive Exs (X K : Type) where
  | nil
  | cons (e : Ex X K) (es : Exs X K)
end

variable {X K V : Type}

def Exs.length : Exs X K → Nat
  | .nil => 0
  | .cons _ es => es.length + 1

/-- The precedence of binary operators, from loosest (1) to tightest (7). -/
def table : List (List BinOp) :=
  [[.or], [.and], [.xor], [.eq, .ne], [.lt, .le, .gt, .ge], [.add, .sub], [.mul, .div]]

/-- `o` is an operator of level `p`. -/
def AtLevel (o : BinOp) (p : Nat) : Prop := ∃ q ops, p = q + 1 ∧ table[q]? = some ops ∧ o ∈ ops

/-- Does the expression start with an operand, rather than with an operator or a parenthesis? -/
def direct : List (Tok X K) → Bool
  | .var _ :: _ | .lit _ :: _ | .func _ _ :: _ | .bopen :: _ => true
  | _ => false

variable (strict : Bool)

mutual
/-- `G p ts e`: the tokens `ts` are the expression `e`, all of whose operators outside of parentheses
belong to level `p` or bind tighter.  Binary operators associate to the left; level 8 are operands with
unary operators, 9 are operands without, 10 are operands that can be indexed.  If `strict`, items of arrays
must start with an operand. -/
inductive G : Nat → List (Tok X K) → Ex X K → Prop where
  | var {x} : G 10 [.var x] (.var x)
  | paren {ts e} : G 1 ts e → G 10 (.popen :: (ts ++ [.pclose])) e
  | call {id n ts es} : id ≠ idAccess → id ≠ idBuild → Args false ts es → es.length = n →
      G 10 (.func id n :: .popen :: (ts ++ [.pclose])) (.call id es)
  | index {ts a us i} : G 10 ts a → G 1 us i → G 10 (ts ++ .bopen :: (us ++ [.bclose])) (.index a i)
  | build {ts es} : Args strict ts es → G 10 (.bopen :: (ts ++ [.bclose])) (.build es)
  | lit {k} : G 9 [.lit k] (.lit k)
  | un {o ts e} : G 8 ts e → G 8 (.un o :: ts) (.un o e)
  | bin {o p l r a b} : AtLevel o p → G p l a → G (p + 1) r b → G p (l ++ .bin o :: r) (.bin o a b)
  | up {p ts e} : 0 < p → p < 10 → G (p + 1) ts e → G p ts e
/-- Comma-separated expressions; if the flag is set, they must all start with an operand. -/
inductive Args : Bool → List (Tok X K) → Exs X K → Prop where
  | nil {d} : Args d [] .nil
  | one {d ts e} : G 1 ts e → (d = true → direct ts = true) → Args d ts (.cons e .nil)
  | cons {d ts e us e' es} : G 1 ts e → (d = true → direct ts = true) → Args d us (.cons e' es) →
      Args d (ts ++ .comma :: us) (.cons e (.cons e' es))
end

/-! ## Meaning -/

/-- Computations that may call the host: the tree of all possible exchanges. -/
inductive Act (V : Type) where
  | ret (v : V)
  | call (id : Nat) (args : List V) (k : V → Act V)

def Act.bind : Act V → (V → Act V) → Act V
  | .ret v, f => f v
  | .call id args k, f => .call id args fun v => (k v).bind f

mutual
/-- The meaning of an expression: operands from left to right.  The second operand of `&&` is evaluated
only if the first is true, that of `||` only if the first is false; otherwise the value is that of the first
operand. -/
def Ex.meaning (E : Env X K V) : Ex X K → Act V
  | .var x => .ret (E.var x)
  | .lit k => .ret (E.lit k)
  | .un o e => (e.meaning E).bind fun v => .ret (E.un o v)
  | .bin o a b =>
    (a.meaning E).bind fun x =>
      match o with
      | .and => if E.toBool x then (b.meaning E).bind fun y => .ret (E.bin .and x y) else .ret x
      | .or => if E.toBool x then .ret x else (b.meaning E).bind fun y => .ret (E.bin .or x y)
      | o => (b.meaning E).bind fun y => .ret (E.bin o x y)
  | .call id es =>
    es.meanings E fun vs =>
      match E.func id with
      | some f => .ret (f vs)
      | none => .call (idExternal - id) vs .ret
  | .index a i => (a.meaning E).bind fun x => (i.meaning E).bind fun y => .ret (E.access x y)
  | .build es => es.meanings E fun vs => .ret (E.build vs)
/-- Arguments from left to right. -/
def Exs.meanings (E : Env X K V) : Exs X K → (List V → Act V) → Act V
  | .nil, f => f []
  | .cons e es, f => (e.meaning E).bind fun v => es.meanings E fun vs => f (v :: vs)
end

/-! ## The same, with a host that answers each call

The calls in the order they are made, and the value. -/

mutual
def Ex.eval (E : Env X K V) (host : Nat → List V → V) : Ex X K → List (Nat × List V) × V
  | .var x => ([], E.var x)
  | .lit k => ([], E.lit k)
  | .un o e => ((e.eval E host).1, E.un o (e.eval E host).2)
  | .bin o a b =>
    let x := a.eval E host
    let y := b.eval E host
    match o with
    | .and => if E.toBool x.2 then (x.1 ++ y.1, E.bin .and x.2 y.2) else x
    | .or => if E.toBool x.2 then x else (x.1 ++ y.1, E.bin .or x.2 y.2)
    | o => (x.1 ++ y.1, E.bin o x.2 y.2)
  | .call id es =>
    let xs := es.evals E host
    match E.func id with
    | some f => (xs.1, f xs.2)
    | none => (xs.1 ++ [(idExternal - id, xs.2)], host (idExternal - id) xs.2)
  | .index a i => ((a.eval E host).1 ++ (i.eval E host).1, E.access (a.eval E host).2 (i.eval E host).2)
  | .build es => ((es.evals E host).1, E.build (es.evals E host).2)
def Exs.evals (E : Env X K V) (host : Nat → List V → V) : Exs X K → List (Nat × List V) × List V
  | .nil => ([], [])
  | .cons e es => ((e.eval E host).1 ++ (es.evals E host).1, (e.eval E host).2 :: (es.evals E host).2)
end

mutual
/-- The value of an expression all of whose operands are evaluated, so that no operator is skipped. -/
def Ex.full (E : Env X K V) (host : Nat → List V → V) : Ex X K → V
  | .var x => E.var x
  | .lit k => E.lit k
  | .un o e => E.un o (e.full E host)
  | .bin o a b => E.bin o (a.full E host) (b.full E host)
  | .call id es =>
    match E.func id with
    | some f => f (es.fulls E host)
    | none => host (idExternal - id) (es.fulls E host)
  | .index a i => E.access (a.full E host) (i.full E host)
  | .build es => E.build (es.fulls E host)
def Exs.fulls (E : Env X K V) (host : Nat → List V → V) : Exs X K → List V
  | .nil => []
  | .cons e es => e.full E host :: es.fulls E host
end

/-- The logical operators and comparisons produce one of two values, `bit true` and `bit false`. -/
structure Logical (E : Env X K V) (bit : Bool → V) : Prop where
  truth : ∀ b, E.toBool (bit b) = b
  and : ∀ x y, E.bin .and x y = bit (E.toBool x && E.toBool y)
  or : ∀ x y, E.bin .or x y = bit (E.toBool x || E.toBool y)
  not : ∀ x, E.un .not x = bit (!E.toBool x)
  other : ∀ o, o ∈ [BinOp.xor, .eq, .ne, .lt, .le, .gt, .ge] → ∀ x y, ∃ b, E.bin o x y = bit b

/-- Expressions that are a truth value by their form: negations, comparisons, and combinations of those. -/
def Ex.boolean : Ex X K → Bool
  | .un .not _ => true
  | .bin o a _ => o ∈ [BinOp.xor, .eq, .ne, .lt, .le, .gt, .ge] || ((o = .and || o = .or) && a.boolean)
  | _ => false

mutual
/-- The first operand of every `&&` and `||` is a truth value by its form. -/
def Ex.tidy : Ex X K → Bool
  | .var _ | .lit _ => true
  | .un _ e => e.tidy
  | .bin o a b => a.tidy && b.tidy && (!(o = .and || o = .or) || a.boolean)
  | .call _ es | .build es => es.tidys
  | .index a i => a.tidy && i.tidy
def Exs.tidys : Exs X K → Bool
  | .nil => true
  | .cons e es => e.tidy && es.tidys
end

/-- What an expression does over several calls of the evaluator, given the answers of the host one by
one: the calls made, and the value if there were enough answers. -/
def Act.play : Act V → List V → List (Nat × List V) × Option V
  | .ret v, _ => ([], some v)
  | .call id args _, [] => ([(id, args)], none)
  | .call id args k, a :: as => ((id, args) :: ((k a).play as).1, ((k a).play as).2)

end Sieve.Expr
