import Verif.ExprModel

/-!
# Values and operators

Model of `Variable` (`src/runtime/mod.rs:38-59`) and of its operators
(`src/runtime/expression.rs:108-301`).  Integers are `Int`, kept in the range of `i64` by the operators
themselves; floating point numbers are a parameter `F` with the operations of `Flt`; strings are lists of
characters; `str::parse::<i64>` is a parameter.
-/

namespace Sieve.Expr

/-- `Variable`, `src/runtime/mod.rs:38-43`. -/
inductive Val (F : Type) where
  | str (s : List Char)
  | int (n : Int)
  | flt (x : F)
  | arr (l : List (Val F))

/-- Floating point arithmetic, and the conversions between strings and numbers.
For `Val.toBool`, `expression.rs:252-259`. -/
structure Flt (F : Type) where
  zero : F
  add : F → F → F
  sub : F → F → F
  mul : F → F → F
  div : F → F → F
  neg : F → F
  ofInt : Int → F
  eq : F → F → Bool
  /-- `partial_cmp` -/
  cmp : F → F → Option Ordering
  /-- `as usize` -/
  toNat : F → Nat
  parseInt : List Char → Option Int
  parseNat : List Char → Option Nat
  parseFlt : List Char → Option F
  showInt : Int → List Char
  showFlt : F → List Char

/-- `i64::MIN`, `i64::MAX`.  For `Val.add`, `expression.rs:109-139`. -/
def i64Min : Int := -9223372036854775808
/-- For `Val.add`, `expression.rs:109-139`. -/
def i64Max : Int := 9223372036854775807

/-- Saturation.  For `Val.add`, `expression.rs:109-139`. -/
def sat (n : Int) : Int := if n < i64Min then i64Min else if i64Max < n then i64Max else n

/-- Reduction modulo `2^64` to the range of `i64`.  For `Val.neg`, `expression.rs:225-231`. -/
def wrap (n : Int) : Int := (n - i64Min) % 18446744073709551616 + i64Min

variable {F : Type}

/-- `to_bool`, `expression.rs:252-259`. -/
def Val.toBool (A : Flt F) : Val F → Bool
  | .flt x => !A.eq x A.zero
  | .int n => n != 0
  | .str s => !s.isEmpty
  | .arr l => !l.isEmpty

/-- A value that is certainly a number: the result of `parse_number`.  For `Val.num`, `expression.rs:233-250`. -/
inductive Num (F : Type) where
  | int (n : Int)
  | flt (x : F)

/-- See `runtime/mod.rs:197-204`. -/
def Num.val : Num F → Val F
  | .int n => .int n
  | .flt x => .flt x

/-- `i64::from(bool)`.  For `binVal`, `expression.rs:186-219`. -/
def bit (b : Bool) : Val F := .int (if b then 1 else 0)

/-- `parse_number`, `expression.rs:233-250`. -/
def Val.num (A : Flt F) : Val F → Num F
  | .str s =>
    if s.isEmpty then .int 0
    else
      match A.parseInt s with
      | some n => .int n
      | none =>
        match A.parseFlt s with
        | some x => .flt x
        | none => .int 0
  | .int n => .int n
  | .flt x => .flt x
  | .arr l => .int (if l.isEmpty then 1 else 0)

mutual
/-- `PartialEq::eq`, `expression.rs:262-277`. -/
def Val.beq (A : Flt F) : Val F → Val F → Bool
  | .int a, .int b => a == b
  | .flt a, .flt b => A.eq a b
  | .int a, .flt b => A.eq (A.ofInt a) b
  | .flt b, .int a => A.eq (A.ofInt a) b
  | .str a, .str b => a == b
  | .str a, .int b =>
    match (Val.str a).num A with
    | .int n => n == b
    | .flt x => A.eq (A.ofInt b) x
  | .str a, .flt b =>
    match (Val.str a).num A with
    | .int n => A.eq (A.ofInt n) b
    | .flt x => A.eq x b
  | .int a, .str b =>
    match (Val.str b).num A with
    | .int n => a == n
    | .flt x => A.eq (A.ofInt a) x
  | .flt a, .str b =>
    match (Val.str b).num A with
    | .int n => A.eq (A.ofInt n) a
    | .flt x => A.eq a x
  | .arr a, .arr b => Val.beqs A a b
  | _, _ => false
/-- Arrays are equal item by item.  See `expression.rs:262-277`. -/
def Val.beqs (A : Flt F) : List (Val F) → List (Val F) → Bool
  | [], [] => true
  | a :: as, b :: bs => Val.beq A a b && Val.beqs A as bs
  | _, _ => false
end

/-- `str::partial_cmp`: by code points (which is the order of UTF-8).  For `Val.cmp`, `expression.rs:281-301`. -/
def cmpStr : List Char → List Char → Ordering
  | [], [] => .eq
  | [], _ :: _ => .lt
  | _ :: _, [] => .gt
  | a :: as, b :: bs => if a.toNat < b.toNat then .lt else if b.toNat < a.toNat then .gt else cmpStr as bs

/-- `i64::cmp`.  For `Num.cmp`, `expression.rs:285-288`. -/
def cmpInt (a b : Int) : Ordering := if a < b then .lt else if b < a then .gt else .eq

/-- Comparison of numbers, `expression.rs:285-288`. -/
def Num.cmp (A : Flt F) : Num F → Num F → Option Ordering
  | .int a, .int b => some (cmpInt a b)
  | .flt a, .flt b => A.cmp a b
  | .int a, .flt b => A.cmp (A.ofInt a) b
  | .flt a, .int b => A.cmp a (A.ofInt b)

mutual
/-- `PartialOrd::partial_cmp`, `expression.rs:281-301`. -/
def Val.cmp (A : Flt F) : Val F → Val F → Option Ordering
  | .int a, .int b => some (cmpInt a b)
  | .flt a, .flt b => A.cmp a b
  | .int a, .flt b => A.cmp (A.ofInt a) b
  | .flt a, .int b => A.cmp a (A.ofInt b)
  | .str a, .str b => some (cmpStr a b)
  | .str a, .int b => ((Val.str a).num A).cmp A (.int b)
  | .str a, .flt b => ((Val.str a).num A).cmp A (.flt b)
  | .int a, .str b => Num.cmp A (.int a) ((Val.str b).num A)
  | .flt a, .str b => Num.cmp A (.flt a) ((Val.str b).num A)
  | .arr a, .arr b => Val.cmps A a b
  | .arr _, _ => some .gt
  | .str _, .arr _ => some .gt
  | _, .arr _ => some .lt
/-- Arrays are compared lexicographically.  See `expression.rs:281-301`. -/
def Val.cmps (A : Flt F) : List (Val F) → List (Val F) → Option Ordering
  | [], [] => some .eq
  | [], _ :: _ => some .lt
  | _ :: _, [] => some .gt
  | a :: as, b :: bs =>
    match Val.cmp A a b with
    | some .eq => Val.cmps A as bs
    | r => r
end

mutual
/-- `Display`, `expression.rs:309-326`. -/
def Val.show (A : Flt F) : Val F → List Char
  | .str s => s
  | .int n => A.showInt n
  | .flt x => A.showFlt x
  | .arr [] => []
  | .arr (v :: vs) => Val.show A v ++ Val.shows A vs
/-- The items after the first.  See `expression.rs:309-326`. -/
def Val.shows (A : Flt F) : List (Val F) → List Char
  | [] => []
  | v :: vs => '\n' :: (Val.show A v ++ Val.shows A vs)
end

/-- `op_add`, `expression.rs:109-139`. -/
def Val.add (A : Flt F) : Val F → Val F → Val F
  | .int a, .int b => .int (sat (a + b))
  | .flt a, .flt b => .flt (A.add a b)
  | .int i, .flt f => .flt (A.add (A.ofInt i) f)
  | .flt f, .int i => .flt (A.add (A.ofInt i) f)
  | .arr a, .arr b => .arr (a ++ b)
  | .arr a, b => .arr (a ++ [b])
  | a, .arr b => .arr (a :: b)
  | .str a, b => if a.isEmpty then b else .str (a ++ b.show A)
  | a, .str b => if b.isEmpty then a else .str (a.show A ++ b)

/-- `op_subtract` on numbers, `expression.rs:143-146`. -/
def Num.sub (A : Flt F) : Num F → Num F → Val F
  | .int a, .int b => .int (sat (a - b))
  | .flt a, .flt b => .flt (A.sub a b)
  | .int a, .flt b => .flt (A.sub (A.ofInt a) b)
  | .flt a, .int b => .flt (A.sub a (A.ofInt b))

/-- `op_subtract`, `expression.rs:141-156`. -/
def Val.sub (A : Flt F) : Val F → Val F → Val F
  | .arr a, b => .arr (a.filter fun v => !Val.beq A v b)
  | b, .arr a => .arr (a.filter fun v => !Val.beq A v b)
  | a, b => Num.sub A (a.num A) (b.num A)

/-- `op_multiply`, `expression.rs:158-166`. -/
def Val.mul (A : Flt F) (a b : Val F) : Val F :=
  match a.num A, b.num A with
  | .int a, .int b => .int (sat (a * b))
  | .flt a, .flt b => .flt (A.mul a b)
  | .int i, .flt f => .flt (A.mul (A.ofInt i) f)
  | .flt f, .int i => .flt (A.mul (A.ofInt i) f)

/-- `op_divide`, `expression.rs:168-184`. -/
def Val.div (A : Flt F) (a b : Val F) : Val F :=
  match a.num A, b.num A with
  | .int a, .int b => .flt (if b ≠ 0 then A.div (A.ofInt a) (A.ofInt b) else A.zero)
  | .flt a, .flt b => .flt (if !A.eq b A.zero then A.div a b else A.zero)
  | .int a, .flt b => .flt (if !A.eq b A.zero then A.div (A.ofInt a) b else A.zero)
  | .flt a, .int b => .flt (if b ≠ 0 then A.div a (A.ofInt b) else A.zero)

/-- `op_minus`, `expression.rs:225-231`.  The negation of an `i64` wraps around (with overflow checks enabled it
panics instead). -/
def Val.neg (A : Flt F) (a : Val F) : Val F :=
  match a.num A with
  | .int n => .int (wrap (-n))
  | .flt x => .flt (A.neg x)

/-- The binary operators, `expression.rs:186-219`. -/
def binVal (A : Flt F) : BinOp → Val F → Val F → Val F
  | .add, a, b => a.add A b
  | .sub, a, b => a.sub A b
  | .mul, a, b => a.mul A b
  | .div, a, b => a.div A b
  | .and, a, b => bit (a.toBool A && b.toBool A)
  | .or, a, b => bit (a.toBool A || b.toBool A)
  | .xor, a, b => bit (a.toBool A ^^ b.toBool A)
  | .eq, a, b => bit (a.beq A b)
  | .ne, a, b => bit (!a.beq A b)
  | .lt, a, b => bit (a.cmp A b == some .lt)
  | .le, a, b => bit (a.cmp A b == some .lt || a.cmp A b == some .eq)
  | .gt, a, b => bit (a.cmp A b == some .gt)
  | .ge, a, b => bit (a.cmp A b == some .gt || a.cmp A b == some .eq)

/-- The unary operators, `expression.rs:221-231`. -/
def unVal (A : Flt F) : UnOp → Val F → Val F
  | .not, a => bit (!a.toBool A)
  | .minus, a => a.neg A

/-- `to_usize`, `src/runtime/mod.rs:100-107`.  A negative integer becomes a huge index. -/
def Val.index (A : Flt F) : Val F → Nat
  | .int n => (n % 18446744073709551616).toNat
  | .flt x => A.toNat x
  | .str s => if s.isEmpty then 0 else (A.parseNat s).getD 0
  | .arr _ => 0

/-- `into_array`, `src/runtime/mod.rs:131-137`. -/
def Val.items : Val F → List (Val F)
  | .arr l => l
  | .str s => if s.isEmpty then [] else [.str s]
  | v => [v]

/-- Array access, `expression.rs:84-89`. -/
def accessVal (A : Flt F) (a i : Val F) : Val F :=
  match a.items[i.index A]? with
  | some v => v
  | none => .str []

/-- The environment of an evaluation: the variables, the functions, and the operators above.  Constants
are values.  See `runtime/expression.rs:16-110`. -/
def valEnv {X : Type} (A : Flt F) (var : X → Val F) (func : Nat → Option (List (Val F) → Val F)) :
    Env X (Val F) (Val F) where
  var := var
  lit := id
  bin := binVal A
  un := unVal A
  toBool := Val.toBool A
  dflt := .str []
  func := func
  access := accessVal A
  build := .arr

end Sieve.Expr
