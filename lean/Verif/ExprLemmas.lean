import Verif.ExprEval
import Verif.ExprValue

/-!
# Expressions: further helper lemmas
-/

namespace Sieve.Expr

variable {X K V F : Type}

theorem G.ups {strict : Bool} {p : Nat} {ts : List (Tok X K)} {e : Ex X K} : ∀ (n q : Nat), p + n = q → 0 < p → q ≤ 10 →
    G strict q ts e → G strict p ts e := by
  intro n
  induction n generalizing p with
  | zero => intro q h _ _ hg; rw [show p = q by omega]; exact hg
  | succ n ih => intro q h h0 hq hg; exact .up h0 (by omega) (ih q (by omega) (by omega) hq hg)

/-- The environment in which the functions of the host are built in. -/
def builtin (E : Env X K V) (host : Nat → List V → V) : Env X K V :=
  { E with func := fun id => match E.func id with | some f => some f | none => some (host (idExternal - id)) }

mutual
theorem builtin_eval (E : Env X K V) (host : Nat → List V → V) : (e : Ex X K) →
    (e.eval (builtin E host) host) = ([], (e.eval E host).2)
  | .var x => rfl
  | .lit k => rfl
  | .un o e => by simp [Ex.eval, builtin_eval E host e]; rfl
  | .bin o a b => by
    have hb := builtin_eval E host b
    cases o <;> simp only [Ex.eval, builtin_eval E host a, hb, List.append_nil] <;> first | rfl | skip
    · by_cases h : E.toBool (a.eval E host).2 = true
      · rw [if_pos h, if_pos (show (builtin E host).toBool _ = true from h)]; rfl
      · rw [if_neg h, if_neg (show ¬ (builtin E host).toBool _ = true from h)]
    · by_cases h : E.toBool (a.eval E host).2 = true
      · rw [if_pos h, if_pos (show (builtin E host).toBool _ = true from h)]
      · rw [if_neg h, if_neg (show ¬ (builtin E host).toBool _ = true from h)]; rfl
  | .call id es => by
    simp only [Ex.eval, builtin_evals E host es]
    cases h : E.func id <;> simp [builtin, h]
  | .index a i => by simp [Ex.eval, builtin_eval E host a, builtin_eval E host i]; rfl
  | .build es => by simp [Ex.eval, builtin_evals E host es]; rfl
theorem builtin_evals (E : Env X K V) (host : Nat → List V → V) : (es : Exs X K) →
    (es.evals (builtin E host) host) = ([], (es.evals E host).2)
  | .nil => rfl
  | .cons e es => by simp [Exs.evals, builtin_eval E host e, builtin_evals E host es]
end

/-- Laws of floating point comparison. -/
structure Ieee (A : Flt F) : Prop where
  eq_cmp : ∀ a b, A.eq a b = true ↔ A.cmp a b = some .eq
  swap : ∀ a b, A.cmp b a = (A.cmp a b).map Ordering.swap

def Val.scalar : Val F → Bool
  | .arr _ => false
  | _ => true

theorem cmpInt_eq (a b : Int) : (cmpInt a b = .eq) ↔ a = b := by
  unfold cmpInt
  split <;> [skip; split] <;> simp <;> omega

theorem cmpStr_eq (a b : List Char) : (cmpStr a b = .eq) ↔ a = b := by
  induction a generalizing b with
  | nil => cases b <;> simp [cmpStr]
  | cons x xs ih =>
    cases b with
    | nil => simp [cmpStr]
    | cons y ys =>
      unfold cmpStr
      split
      · rename_i h
        simp only [reduceCtorEq, List.cons.injEq, false_iff, not_and]
        intro h'; subst h'; omega
      · split
        · rename_i h
          simp only [reduceCtorEq, List.cons.injEq, false_iff, not_and]
          intro h'; subst h'; omega
        · rename_i h1 h2
          have hxy : x.toNat = y.toNat := by omega
          have : x = y := Char.ext (UInt32.toNat_inj.mp hxy)
          rw [ih]
          simp [this]

theorem cmpStr_swap (a b : List Char) : cmpStr b a = (cmpStr a b).swap := by
  induction a generalizing b with
  | nil => cases b <;> rfl
  | cons x xs ih =>
    cases b with
    | nil => rfl
    | cons y ys =>
      simp only [cmpStr]
      by_cases h1 : x.toNat < y.toNat
      · rw [if_pos h1, if_neg (by omega), if_pos h1]; rfl
      · by_cases h2 : y.toNat < x.toNat
        · rw [if_pos h2, if_neg h1, if_pos h2]; rfl
        · rw [if_neg h1, if_neg h2, if_neg h2, if_neg h1]; exact ih ys

theorem cmpInt_swap (a b : Int) : cmpInt b a = (cmpInt a b).swap := by
  unfold cmpInt
  by_cases h1 : a < b
  · rw [if_pos h1, if_neg (by omega), if_pos h1]; rfl
  · by_cases h2 : b < a
    · rw [if_pos h2, if_neg h1, if_pos h2]; rfl
    · rw [if_neg h1, if_neg h2, if_neg h2, if_neg h1]; rfl

/-- `==` agrees with the comparison of values other than arrays. -/
theorem beq_cmp {A : Flt F} (hA : Ieee A) {a b : Val F} (ha : a.scalar = true) (hb : b.scalar = true) :
    a.beq A b = true ↔ a.cmp A b = some .eq := by
  have comm : ∀ x y, A.eq y x = true ↔ A.cmp x y = some .eq := by
    intro x y
    rw [hA.eq_cmp, hA.swap x y]
    cases A.cmp x y with
    | none => simp
    | some o => cases o <;> simp
  cases a <;> cases b <;> simp only [Val.scalar, Bool.false_eq_true] at ha hb
  case str.str => simp [Val.beq, Val.cmp, cmpStr_eq]
  case str.int s n =>
    simp only [Val.beq, Val.cmp]
    cases (Val.str s).num A <;> simp [Num.cmp, cmpInt_eq, comm]
  case str.flt s n =>
    simp only [Val.beq, Val.cmp]
    cases (Val.str s).num A <;> simp [Num.cmp, hA.eq_cmp]
  case int.str n s =>
    simp only [Val.beq, Val.cmp]
    cases (Val.str s).num A <;> simp [Num.cmp, cmpInt_eq, hA.eq_cmp]
  case int.int => simp [Val.beq, Val.cmp, cmpInt_eq]
  case int.flt => simp [Val.beq, Val.cmp, hA.eq_cmp]
  case flt.str x s =>
    simp only [Val.beq, Val.cmp]
    cases (Val.str s).num A <;> simp only [Num.cmp] <;> first | exact comm _ _ | exact hA.eq_cmp _ _
  case flt.int => simp [Val.beq, Val.cmp, comm]
  case flt.flt => simp [Val.beq, Val.cmp, hA.eq_cmp]

theorem num_swap {A : Flt F} (hA : Ieee A) (a b : Num F) : b.cmp A a = (a.cmp A b).map Ordering.swap := by
  cases a <;> cases b <;> simp only [Num.cmp, Option.map_some] <;>
    first | exact congrArg some (cmpInt_swap _ _) | exact hA.swap _ _

theorem cmp_swap {A : Flt F} (hA : Ieee A) {a b : Val F} (ha : a.scalar = true) (hb : b.scalar = true) :
    b.cmp A a = (a.cmp A b).map Ordering.swap := by
  cases a <;> cases b <;> simp only [Val.scalar, Bool.false_eq_true] at ha hb <;> simp only [Val.cmp, Option.map_some] <;>
    first | exact congrArg some (cmpStr_swap _ _) | exact congrArg some (cmpInt_swap _ _) | exact hA.swap _ _ | exact num_swap hA _ _

end Sieve.Expr
