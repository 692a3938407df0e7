import Verif.ExprLemmas
import Verif.ExprSafe

/-!
# Expressions: properties

C18 (precedence), C19 (short circuit), C20 (host functions), C48 (the parser does not panic), C49 (integer
arithmetic) and C50 (comparisons).
-/

namespace Sieve.Expr

variable {X K V F : Type}

/-! ## A concrete setting for the examples: variables and constants are values, numbers are integers -/

/-- "Floating point numbers" that are integers. -/
def intFlt : Flt Int where
  zero := 0
  add := (· + ·)
  sub := (· - ·)
  mul := (· * ·)
  div := (· / ·)
  neg := (- ·)
  ofInt := id
  eq a b := a == b
  cmp a b := some (cmpInt a b)
  toNat := Int.toNat
  parseInt _ := none
  parseNat _ := none
  parseFlt _ := none
  showInt _ := []
  showFlt _ := []

/-- Variable `x` has the value `x`; function 0 adds its two arguments; all others belong to the host. -/
def exEnv : Env Nat (Val Int) (Val Int) :=
  valEnv intFlt (fun x => .int x) fun id => if id = 0 then some fun vs => match vs with | [a, b] => a.add intFlt b | _ => .str [] else none

/-! ## C18 -/

/-- An expression of the grammar is compiled to code that does what the tree does: it makes the same calls and
has the same value, whatever the variables, operators and functions are, and whatever the host answers.

Missing: array items that start with an operator or a parenthesis (the grammar is the strict one); see
`array_item_rejected`. -/
theorem precedence_partial {ts : List (Tok X K)} {e : Ex X K} (h : G true 1 ts e) :
    ∃ code, parse ts = .ok code ∧
      ∀ (V : Type) (E : Env X K V) (answers : List V), playCode E code (0, []) answers = (e.meaning E).play answers := by
  obtain ⟨s, pd, hp⟩ := g_parsed h ⟨[], [], [], false⟩ trivial trivial rfl
  refine ⟨e.code, ?_, fun V E as => ?_⟩
  · have hops : s.ops = pd := by
      have := hp.ops
      simpa [after] using this
    have hf := hp.flushed
    simp only [List.nil_append] at hf
    simp only [parse, hp.run, Res.bind, hops]
    exact hf
  · rw [playCode_run]
    show (run E e.code []).play as = _
    rw [run_ex]

/-- The tree is determined by the tokens. -/
theorem tree_unique {ts : List (Tok X K)} {e e' : Ex X K} (h : G true 1 ts e) (h' : G true 1 ts e') : e = e' := by
  have code : ∀ {e : Ex X K}, G true 1 ts e → parse ts = .ok e.code := by
    intro e h
    obtain ⟨s, pd, hp⟩ := g_parsed h ⟨[], [], [], false⟩ trivial trivial rfl
    have hops : s.ops = pd := by
      have := hp.ops
      simpa [after] using this
    have hf := hp.flushed
    simp only [List.nil_append] at hf
    simp only [parse, hp.run, Res.bind, hops]
    exact hf
  have := (code h).symm.trans (code h')
  simp only [Res.ok.injEq] at this
  exact code_injective this

/-- `[(a)]` is an expression, but the parser rejects it: the opening parenthesis hides the array from the counter
of its items. -/
theorem array_item_rejected : G false 1 [Tok.bopen, .popen, .var 0, .pclose, .bclose] (.build (.cons (.var 0) .nil) : Ex Nat Nat) ∧
    parse [Tok.bopen, .popen, .var 0, .pclose, .bclose] = (.err : Res (List (Code Nat Nat))) := by
  have up : ∀ {ts : List (Tok Nat Nat)} {e}, G false 10 ts e → G false 1 ts e := G.ups 9 10 rfl (by decide) (by decide)
  refine ⟨?_, by decide⟩
  refine up ?_
  exact .build (ts := [.popen, .var 0, .pclose]) (.one (up (.paren (ts := [.var 0]) (up .var))) (by simp))

/-- The parser accepts token sequences that are not expressions: here two operands without operator.  The value is that of
the last one. -/
theorem juxtaposition_accepted : parse [Tok.var 0, .var 1] = (.ok [.var 0, .var 1] : Res (List (Code Nat Nat))) := by decide

/-- `1 - 2 - !v3 * v4 && [v5, 6][v0] == f(7, 8)`, as tokens. -/
def exToks : List (Tok Nat Nat) :=
  [.lit 1, .bin .sub, .lit 2, .bin .sub, .un .not, .var 3, .bin .mul, .var 4, .bin .and,
    .bopen, .var 5, .comma, .lit 6, .bclose, .bopen, .var 0, .bclose, .bin .eq, .func 9 2, .popen, .lit 7, .comma, .lit 8, .pclose]

/-- Its tree. -/
def exTree : Ex Nat Nat :=
  .bin .and
    (.bin .sub (.bin .sub (.lit 1) (.lit 2)) (.bin .mul (.un .not (.var 3)) (.var 4)))
    (.bin .eq (.index (.build (.cons (.var 5) (.cons (.lit 6) .nil))) (.var 0)) (.call 9 (.cons (.lit 7) (.cons (.lit 8) .nil))))

theorem exGrammar : G true 1 exToks exTree := by
  have v : ∀ n (x : Nat) p, p + n = 10 → 0 < p → G true p [.var x] (.var x : Ex Nat Nat) :=
    fun n x p h h0 => G.ups n 10 h h0 (by omega) .var
  have l : ∀ n (x : Nat) p, p + n = 9 → 0 < p → G true p [.lit x] (.lit x : Ex Nat Nat) :=
    fun n x p h h0 => G.ups n 9 h h0 (by omega) .lit
  refine G.ups 1 2 rfl (by omega) (by omega) ?_
  refine .bin (l := [.lit 1, .bin .sub, .lit 2, .bin .sub, .un .not, .var 3, .bin .mul, .var 4]) (prec_atLevel .and) ?_ ?_
  · refine G.ups 4 6 rfl (by omega) (by omega) ?_
    refine .bin (l := [.lit 1, .bin .sub, .lit 2]) (prec_atLevel .sub) ?_ ?_
    · exact .bin (l := [.lit 1]) (prec_atLevel .sub) (l 3 1 6 rfl (by omega)) (l 2 2 7 rfl (by omega))
    · exact .bin (l := [.un .not, .var 3]) (prec_atLevel .mul) (G.ups 1 8 rfl (by omega) (by omega) (.un (v 2 3 8 rfl (by omega)))) (v 2 4 8 rfl (by omega))
  · refine G.ups 1 4 rfl (by omega) (by omega) ?_
    refine .bin (l := [.bopen, .var 5, .comma, .lit 6, .bclose, .bopen, .var 0, .bclose]) (prec_atLevel .eq) ?_ ?_
    · refine G.ups 6 10 rfl (by omega) (by omega) ?_
      refine .index (ts := [.bopen, .var 5, .comma, .lit 6, .bclose]) (us := [.var 0]) ?_ (v 9 0 1 rfl (by omega))
      exact .build (ts := [.var 5, .comma, .lit 6])
        (.cons (ts := [.var 5]) (v 9 5 1 rfl (by omega)) (by simp [direct]) (.one (l 8 6 1 rfl (by omega)) (by simp [direct])))
    · refine G.ups 5 10 rfl (by omega) (by omega) ?_
      exact .call (ts := [.lit 7, .comma, .lit 8]) (by decide) (by decide)
        (.cons (ts := [.lit 7]) (l 8 7 1 rfl (by omega)) (by simp) (.one (l 8 8 1 rfl (by omega)) (by simp))) rfl

example : ∃ code, parse exToks = .ok code ∧
    ∀ (V : Type) (E : Env Nat Nat V) (answers : List V), playCode E code (0, []) answers = (exTree.meaning E).play answers :=
  precedence_partial exGrammar

/-! ## C19 -/

/-- The value and the calls of `a && b`: the second operand takes part only if the first is true.  `code` is what the parser
produces for any tokens that are the expression. -/
theorem and_short_circuit {ts : List (Tok X K)} {a b : Ex X K} (h : G true 1 ts (.bin .and a b)) (E : Env X K V) (host : Nat → List V → V) :
    ∃ code calls v, parse ts = .ok code ∧ playCode E code (0, []) (calls.map fun c => host c.1 c.2) = (calls, some v) ∧
      (E.toBool (a.eval E host).2 = false → calls = (a.eval E host).1 ∧ v = (a.eval E host).2) ∧
      (E.toBool (a.eval E host).2 = true → calls = (a.eval E host).1 ++ (b.eval E host).1 ∧
        v = E.bin .and (a.eval E host).2 (b.eval E host).2) := by
  obtain ⟨code, hc, hp⟩ := precedence_partial h
  refine ⟨code, ((Ex.bin .and a b).eval E host).1, ((Ex.bin .and a b).eval E host).2, hc, ?_, ?_, ?_⟩
  · rw [hp, ← serve_meaning, play_serve]
  · intro ht; simp [Ex.eval, ht]
  · intro ht; simp [Ex.eval, ht]

/-- The same for `a || b`. -/
theorem or_short_circuit {ts : List (Tok X K)} {a b : Ex X K} (h : G true 1 ts (.bin .or a b)) (E : Env X K V) (host : Nat → List V → V) :
    ∃ code calls v, parse ts = .ok code ∧ playCode E code (0, []) (calls.map fun c => host c.1 c.2) = (calls, some v) ∧
      (E.toBool (a.eval E host).2 = true → calls = (a.eval E host).1 ∧ v = (a.eval E host).2) ∧
      (E.toBool (a.eval E host).2 = false → calls = (a.eval E host).1 ++ (b.eval E host).1 ∧
        v = E.bin .or (a.eval E host).2 (b.eval E host).2) := by
  obtain ⟨code, hc, hp⟩ := precedence_partial h
  refine ⟨code, ((Ex.bin .or a b).eval E host).1, ((Ex.bin .or a b).eval E host).2, hc, ?_, ?_, ?_⟩
  · rw [hp, ← serve_meaning, play_serve]
  · intro ht; simp [Ex.eval, ht]
  · intro ht; simp [Ex.eval, ht]

example : G true 1 ([.var 0, .bin .and, .var 1] : List (Tok Nat Nat)) (.bin .and (.var 0) (.var 1)) := by
  refine G.ups 1 2 rfl (by omega) (by omega) ?_
  exact .bin (l := [.var 0]) (prec_atLevel .and) (G.ups 8 10 rfl (by omega) (by omega) .var) (G.ups 7 10 rfl (by omega) (by omega) .var)

/-- The operators of `Variable` produce the integers 0 and 1 as truth values. -/
theorem valEnv_logical (A : Flt F) (var : X → Val F) (func : Nat → Option (List (Val F) → Val F)) :
    Logical (valEnv A var func) bit where
  truth b := by cases b <;> simp [valEnv, bit, Val.toBool]
  and x y := rfl
  or x y := rfl
  not x := rfl
  other o ho x y := by cases o <;> first | exact ⟨_, rfl⟩ | (simp at ho)

/-- The truth value of `a && b` and `a || b` is the one obtained from both operands, also when the second one is not
evaluated.  Missing: the value itself; see `skipped_operator`. -/
theorem short_circuit_truth_partial (A : Flt F) (var : X → Val F) (func : Nat → Option (List (Val F) → Val F))
    (host : Nat → List (Val F) → Val F) (a b : Ex X (Val F)) :
    let E := valEnv A var func
    E.toBool ((Ex.bin .and a b).eval E host).2 = (E.toBool (a.eval E host).2 && E.toBool (b.eval E host).2) ∧
    E.toBool ((Ex.bin .or a b).eval E host).2 = (E.toBool (a.eval E host).2 || E.toBool (b.eval E host).2) := by
  intro E
  have hl := valEnv_logical A var func
  constructor
  · simp only [Ex.eval]
    cases h : E.toBool (a.eval E host).2
    · simp [h]
    · rw [if_pos rfl, hl.and, hl.truth, h]
  · simp only [Ex.eval]
    cases h : E.toBool (a.eval E host).2
    · rw [if_neg (by simp), hl.or, hl.truth, h]
    · simp [h]

/-- If the first operand of every `&&` and `||` is a negation, a comparison, or a combination of such, then skipping does
not change the value. -/
theorem short_circuit_value_partial (A : Flt F) (var : X → Val F) (func : Nat → Option (List (Val F) → Val F))
    (host : Nat → List (Val F) → Val F) {e : Ex X (Val F)} (h : e.tidy = true) :
    (e.eval (valEnv A var func) host).2 = e.full (valEnv A var func) host :=
  tidy_full (valEnv_logical A var func) host e h

example : (Ex.bin .or (.bin .lt (.var 0) (.var 1)) (.bin .and (.un .not (.var 2)) (.var 3)) : Ex Nat (Val Int)).tidy = true := by decide

/-- `5 || 0` has the value 5, though the operator would give 1; so `(5 || 0) + 1` is 6. -/
theorem skipped_operator :
    ((Ex.bin .add (.bin .or (.lit (.int 5)) (.lit (.int 0))) (.lit (.int 1))).eval exEnv (fun _ _ => .str [])).2 = .int 6 ∧
    (Ex.bin .add (.bin .or (.lit (.int 5)) (.lit (.int 0))) (.lit (.int 1)) : Ex Nat (Val Int)).full exEnv (fun _ _ => .str []) = .int 2 := by
  constructor <;> rfl

/-! ## C20 -/

/-- Driven by a host that answers every call, the evaluator makes the calls of the expression, in order and with the
right arguments, and ends with the value of the expression. -/
theorem host_calls {ts : List (Tok X K)} {e : Ex X K} (h : G true 1 ts e) (E : Env X K V) (host : Nat → List V → V) :
    ∃ code, parse ts = .ok code ∧
      playCode E code (0, []) ((e.eval E host).1.map fun c => host c.1 c.2) = ((e.eval E host).1, some (e.eval E host).2) := by
  obtain ⟨code, hc, hp⟩ := precedence_partial h
  exact ⟨code, hc, by rw [hp, ← serve_meaning, play_serve]⟩

/-- With fewer answers it is suspended at a call: the calls so far are a prefix of those above, one per answer and
the one that is waiting. -/
theorem host_calls_prefix {ts : List (Tok X K)} {e : Ex X K} (h : G true 1 ts e) (E : Env X K V) (host : Nat → List V → V) (n : Nat)
    (hn : n < (e.eval E host).1.length) :
    ∃ code, parse ts = .ok code ∧
      playCode E code (0, []) (((e.eval E host).1.take n).map fun c => host c.1 c.2) = ((e.eval E host).1.take (n + 1), none) := by
  obtain ⟨code, hc, hp⟩ := precedence_partial h
  refine ⟨code, hc, ?_⟩
  rw [hp, ← serve_meaning]
  rw [← serve_meaning] at hn
  generalize e.meaning E = a at hn
  induction a generalizing n with
  | ret v => simp [Act.serve] at hn
  | call id args k ih =>
    cases n with
    | zero => simp [Act.serve, Act.play]
    | succ n =>
      simp only [Act.serve, List.length_cons] at hn
      simp only [Act.serve, List.take_succ_cons, List.map_cons, Act.play]
      rw [ih _ n (by omega)]

/-- After all answers have been supplied the value is the one computed, without any call, when the functions of the
host are built in. -/
theorem host_as_builtin {ts : List (Tok X K)} {e : Ex X K} (h : G true 1 ts e) (E : Env X K V) (host : Nat → List V → V) :
    ∃ code v calls, parse ts = .ok code ∧ evalExpr (builtin E host) code (0, []) = .done v ∧
      playCode E code (0, []) (calls.map fun c => host c.1 c.2) = (calls, some v) := by
  obtain ⟨code, hc, hp⟩ := precedence_partial h
  refine ⟨code, (e.eval E host).2, (e.eval E host).1, hc, ?_, by rw [hp, ← serve_meaning, play_serve]⟩
  have h1 := hp V (builtin E host) []
  have h2 := play_serve host (e.meaning (builtin E host))
  rw [serve_meaning, builtin_eval] at h2
  simp only [List.map_nil] at h2
  rw [h2] at h1
  unfold playCode at h1
  split at h1
  · rename_i v hv
    simp only [Prod.mk.injEq, Option.some.injEq, true_and] at h1
    rw [hv, h1]
  · simp at h1

/-- `f(h(1), 2)` with a built-in `f` (number 0) and a host function `h`. -/
example : playCode exEnv [.lit (.int 1), .func (idExternal - 4) 1, .lit (.int 2), .func 0 2] (0, []) [.int 40] =
    ([(4, [.int 1])], some (.int 42)) := by
  simp [playCode, evalExpr, evalLoop, exEnv, valEnv, popN, pop1, idExternal, Val.add, sat, i64Min, i64Max]

/-! ## C48 -/

/-- Whatever the tokens are, the parser returns code or an error. -/
theorem parse_total (ts : List (Tok X K)) : (∃ code, parse ts = .ok code) ∨ parse ts = .err := by
  cases h : parse ts with
  | ok code => exact .inl ⟨code, rfl⟩
  | err => exact .inr rfl
  | panic => exact absurd h (parse_safe ts)

example : parse ([.pclose, .bin .and, .comma, .bclose] : List (Tok Nat Nat)) = .err := by decide

/-! ## C49 -/

/-- An `i64`. -/
def I64 (n : Int) : Prop := -9223372036854775808 ≤ n ∧ n ≤ 9223372036854775807

/-- The `i64` nearest to `n`. -/
def Nearest (n m : Int) : Prop := I64 m ∧ ∀ k, I64 k → (m - n).natAbs ≤ (k - n).natAbs

theorem sat_nearest (n : Int) : Nearest n (sat n) := by
  unfold Nearest sat I64 i64Min i64Max
  refine ⟨by split <;> [skip; split] <;> omega, fun k hk => ?_⟩
  split <;> [skip; split] <;> omega

/-- Sums, differences and products of integers are the nearest `i64` to the exact result. -/
theorem integer_arithmetic (A : Flt F) (a b : Int) :
    (∃ n, binVal A .add (.int a) (.int b) = .int n ∧ Nearest (a + b) n) ∧
    (∃ n, binVal A .sub (.int a) (.int b) = .int n ∧ Nearest (a - b) n) ∧
    (∃ n, binVal A .mul (.int a) (.int b) = .int n ∧ Nearest (a * b) n) :=
  ⟨⟨_, rfl, sat_nearest _⟩, ⟨_, rfl, sat_nearest _⟩, ⟨_, rfl, sat_nearest _⟩⟩

example : binVal intFlt .add (.int 9223372036854775807) (.int 5) = .int 9223372036854775807 := by
  simp [binVal, Val.add, sat, i64Min, i64Max]

/-- Division by zero has the value zero, for integers and for floating point numbers. -/
theorem division_by_zero (A : Flt F) (a : Val F) {b : Val F}
    (hb : b = .int 0 ∨ ∃ x, b = .flt x ∧ A.eq x A.zero = true) : binVal A .div a b = .flt A.zero := by
  rcases hb with rfl | ⟨x, rfl, hx⟩
  · simp only [binVal, Val.div]
    cases a.num A <;> simp [Val.num]
  · simp only [binVal, Val.div]
    cases a.num A <;> simp [Val.num, hx]

/-- Negation is exact, except for the smallest integer. -/
theorem negation_partial (A : Flt F) {a : Int} (h : I64 a) (hm : a ≠ -9223372036854775808) :
    unVal A .minus (.int a) = .int (-a) := by
  simp only [unVal, Val.neg, Val.num, wrap, i64Min]
  unfold I64 at h
  congr 1
  omega

/-- The negation of the smallest integer overflows, which is reported by a panic or, without overflow checks, yields the
smallest integer again. -/
theorem negation_overflow (A : Flt F) : unVal A .minus (.int i64Min) = .int i64Min ∧ ¬ Nearest (-i64Min) i64Min := by
  constructor
  · simp only [unVal, Val.neg, Val.num, wrap, i64Min]; rfl
  · rintro ⟨_, h⟩
    have := h i64Max (by unfold I64 i64Max; omega)
    unfold i64Min i64Max at this
    omega

/-! ## C50 -/

theorem intFlt_ieee : Ieee intFlt where
  eq_cmp a b := by
    simp only [intFlt, cmpInt]
    split <;> [skip; split] <;> simp <;> omega
  swap a b := by
    simp only [intFlt, cmpInt, Option.map_some]
    split <;> split <;> (try split) <;> simp <;> omega

/-- For values other than arrays that can be compared at all (no NaN is involved), exactly one of `<`, `==` and `>` holds;
`<=`, `>=` and `!=` agree with them; and `a < b` is `b > a`.  The operators yield 1 if they hold.

Missing: arrays; see `string_array_order`. -/
theorem comparison_partial {A : Flt F} (hA : Ieee A) {a b : Val F} (ha : a.scalar = true) (hb : b.scalar = true)
    (hc : a.cmp A b ≠ none) :
    let holds := fun o (a b : Val F) => binVal A o a b = .int 1
    ((holds .lt a b ∧ ¬ holds .eq a b ∧ ¬ holds .gt a b) ∨ (¬ holds .lt a b ∧ holds .eq a b ∧ ¬ holds .gt a b) ∨
      (¬ holds .lt a b ∧ ¬ holds .eq a b ∧ holds .gt a b)) ∧
    (holds .le a b ↔ holds .lt a b ∨ holds .eq a b) ∧ (holds .ge a b ↔ holds .gt a b ∨ holds .eq a b) ∧
    (holds .ne a b ↔ ¬ holds .eq a b) ∧ (holds .lt a b ↔ holds .gt b a) ∧ (holds .le a b ↔ holds .ge b a) := by
  intro holds
  have hbit : ∀ c : Bool, (bit c : Val F) = .int 1 ↔ c = true := by intro c; cases c <;> simp [bit]
  have heq := beq_cmp hA ha hb
  have hsw := cmp_swap hA ha hb
  simp only [holds, binVal, hbit, hsw]
  cases hcmp : a.cmp A b with
  | none => exact absurd hcmp hc
  | some r =>
    rw [hcmp] at heq
    have he : a.beq A b = decide (r = .eq) := by
      cases r <;> simp at heq <;> simp [heq]
    rw [he]
    cases r <;> simp

example : let A := intFlt
    (Val.str ['a'] : Val Int).scalar = true ∧ (Val.int 3 : Val Int).scalar = true ∧ Val.cmp A (.str ['a']) (.int 3) ≠ none := by
  refine ⟨rfl, rfl, ?_⟩
  simp [Val.cmp, Val.num, intFlt, Num.cmp]

/-- A string is greater than an array, and the array is greater than the string. -/
theorem string_array_order (A : Flt F) (s : List Char) (l : List (Val F)) :
    binVal A .gt (.str s) (.arr l) = .int 1 ∧ binVal A .gt (.arr l) (.str s) = .int 1 := by
  simp [binVal, Val.cmp, bit]

end Sieve.Expr
