import Verif.ExprParse

/-!
# Expressions: running the compiled code

Helper lemmas.  `run` is the tree of all exchanges of the code with the host; it is compared with the meaning
of the expression the code was compiled from, and with what `eval_expression` does over several calls.
-/

namespace Sieve.Expr

variable {X K V : Type}

theorem Act.bind_assoc (a : Act V) (f g : V → Act V) : (a.bind f).bind g = a.bind fun v => (f v).bind g := by
  induction a with
  | ret v => rfl
  | call id args k ih => simp [Act.bind, ih]

theorem Act.bind_ret (a : Act V) : a.bind .ret = a := by
  induction a with
  | ret v => rfl
  | call id args k ih => simp [Act.bind, ih]

/-- All exchanges of the code `l`, started with the stack `st`. -/
def run (E : Env X K V) (l : List (Code X K)) (st : List V) : Act V :=
  match l with
  | [] => .ret (pop1 E st).1
  | c :: l =>
    match c with
    | .var x => run E l (E.var x :: st)
    | .lit k => run E l (E.lit k :: st)
    | .un o => run E l (E.un o (pop1 E st).1 :: (pop1 E st).2)
    | .bin o => run E l (E.bin o (pop1 E (pop1 E st).2).1 (pop1 E st).1 :: (pop1 E (pop1 E st).2).2)
    | .func id n =>
      match E.func id with
      | some f => run E l (f (popN E n st []).1 :: (popN E n st []).2)
      | none => .call (idExternal - id) (popN E n st []).1 fun v => run E l (v :: (popN E n st []).2)
    | .jmpIf val n =>
      if (match st with | [] => false | v :: _ => E.toBool v) = val then run E (l.drop n) st else run E l st
    | .access => run E l (E.access (pop1 E (pop1 E st).2).1 (pop1 E st).1 :: (pop1 E (pop1 E st).2).2)
    | .build n => run E l (E.build (popN E n st []).1 :: (popN E n st []).2)
termination_by l.length
decreasing_by all_goals simp; try omega

theorem popN_append (E : Env X K V) (vs st acc : List V) :
    popN E vs.length (vs ++ st) acc = (vs.reverse ++ acc, st) := by
  induction vs generalizing acc with
  | nil => simp [popN]
  | cons v vs ih => simp [popN, pop1, ih]

theorem popN_reverse (E : Env X K V) (vs st : List V) : popN E vs.length (vs.reverse ++ st) [] = (vs, st) := by
  have := popN_append E vs.reverse st []
  simpa using this

theorem meanings_bind (E : Env X K V) : (es : Exs X K) → (f : List V → Act V) → (g : V → Act V) →
    (es.meanings E f).bind g = es.meanings E fun vs => (f vs).bind g
  | .nil, f, g => by simp [Exs.meanings]
  | .cons e es, f, g => by
    simp only [Exs.meanings, Act.bind_assoc]
    congr 1; funext v
    exact meanings_bind E es _ g

mutual
/-- Running the code of an expression is its meaning followed by the rest, with the value on the stack. -/
theorem run_code (E : Env X K V) : (e : Ex X K) → (rest : List (Code X K)) → (st : List V) →
    run E (e.code ++ rest) st = (e.meaning E).bind fun v => run E rest (v :: st)
  | .var x, rest, st => by simp [Ex.code, Ex.meaning, Act.bind, run]
  | .lit k, rest, st => by simp [Ex.code, Ex.meaning, Act.bind, run]
  | .un o e, rest, st => by
    simp [Ex.code, Ex.meaning, Act.bind_assoc, Act.bind, run_code E e, run, pop1]
  | .bin o a b, rest, st => by
    have hb := run_code E b
    cases o <;>
      simp [Ex.code, binCode, jumpOf, Ex.meaning, Act.bind_assoc, run_code E a, hb, run, pop1] <;>
      first
      | rfl
      | (congr 1; funext x; by_cases h : E.toBool x = true <;> simp [h, Act.bind_assoc, Act.bind, run, pop1, hb])
  | .call id es, rest, st => by
    have := run_codes E es (.func id es.length :: rest) st []
      (fun vs => match E.func id with
        | some f => run E rest (f vs :: st)
        | none => .call (idExternal - id) vs fun v => run E rest (v :: st)) (fun vs hv => by
        simp only [List.length_nil, Nat.add_zero] at hv
        rw [run, ← hv, popN_reverse])
    simp only [Ex.code, Ex.meaning, List.append_assoc, List.cons_append, List.nil_append]
    simp only [List.reverse_nil, List.nil_append] at this
    rw [this, meanings_bind]
    congr 1; funext vs
    cases E.func id <;> simp [Act.bind]
  | .index a i, rest, st => by
    simp [Ex.code, Ex.meaning, Act.bind_assoc, Act.bind, run_code E a, run_code E i, run, pop1]
  | .build es, rest, st => by
    have := run_codes E es (.build es.length :: rest) st [] (fun vs => run E rest (E.build vs :: st)) (fun vs hv => by
        simp only [List.length_nil, Nat.add_zero] at hv
        rw [run, ← hv, popN_reverse])
    simp only [Ex.code, Ex.meaning, List.append_assoc, List.cons_append, List.nil_append]
    simp only [List.reverse_nil, List.nil_append] at this
    rw [this, meanings_bind]
    rfl
/-- Running the code of arguments. -/
theorem run_codes (E : Env X K V) : (es : Exs X K) → (rest : List (Code X K)) → (st : List V) → (acc : List V) → (f : List V → Act V) →
    (∀ vs : List V, vs.length = es.length + acc.length → run E rest (vs.reverse ++ st) = f vs) →
    run E (es.code ++ rest) (acc.reverse ++ st) = es.meanings E fun vs => f (acc ++ vs)
  | .nil, rest, st, acc, f, h => by
    simpa [Exs.code, Exs.meanings, Exs.length] using h acc (by simp [Exs.length])
  | .cons e es, rest, st, acc, f, h => by
    simp only [Exs.code, Exs.meanings, List.append_assoc, run_code E e]
    congr 1; funext v
    have := run_codes E es rest st (acc ++ [v]) f (fun vs hv => h vs (by simp [Exs.length] at hv ⊢; omega))
    simpa using this
end

/-! ## Over several calls -/

/-- `Act.play` for `eval_expression`: called again with the answer on its stack (`context.rs:85-87`). -/
def playCode (E : Env X K V) (code : List (Code X K)) (s : Nat × List V) : List V → List (Nat × List V) × Option V
  | [] =>
    match evalExpr E code s with
    | .done v => ([], some v)
    | .call id args _ _ => ([(id, args)], none)
  | a :: as =>
    match evalExpr E code s with
    | .done v => ([], some v)
    | .call id args pos st =>
      ((id, args) :: (playCode E code (pos, a :: st) as).1, (playCode E code (pos, a :: st) as).2)

/-- One call of `eval_expression` follows the tree up to the next exchange. -/
theorem evalLoop_run (E : Env X K V) (code : List (Code X K)) : ∀ n (l : List (Code X K)) pos st, l.length ≤ n → l = code.drop pos →
    (∃ v, evalLoop E l pos st = .done v ∧ run E l st = .ret v) ∨
    (∃ id args pos' st', evalLoop E l pos st = .call id args pos' st' ∧
      run E l st = .call id args fun a => run E (code.drop pos') (a :: st')) := by
  intro n
  induction n with
  | zero =>
    intro l pos st hn hl
    have : l = [] := List.length_eq_zero_iff.mp (by omega)
    subst this
    exact .inl ⟨_, by rw [evalLoop], by rw [run]⟩
  | succ n ih =>
    intro l pos st hn hl
    cases l with
    | nil => exact .inl ⟨_, by rw [evalLoop], by rw [run]⟩
    | cons c l =>
      have hd : l = code.drop (pos + 1) := by
        rw [← List.drop_drop, ← hl]; rfl
      have hlen : l.length ≤ n := by simpa using hn
      have hdr : ∀ k, (l.drop k).length ≤ n := fun k => by rw [List.length_drop]; omega
      have hdd : ∀ k, l.drop k = code.drop (pos + 1 + k) := fun k => by rw [hd, List.drop_drop]
      rw [evalLoop.eq_def, run.eq_def]; simp only
      cases c with
      | jmpIf v k =>
        cases st <;> (simp only; split; exact ih _ _ _ (hdr k) (hdd k); exact ih _ _ _ hlen hd)
      | func id k =>
        simp only
        cases E.func id with
        | some f => exact ih _ _ _ hlen hd
        | none => exact .inr ⟨_, _, _, _, rfl, by simp only [← hd]⟩
      | _ => exact ih _ _ _ hlen hd

theorem playCode_run (E : Env X K V) (code : List (Code X K)) (as : List V) : ∀ s,
    playCode E code s as = (run E (code.drop s.1) s.2).play as := by
  induction as with
  | nil =>
    intro s
    unfold playCode evalExpr
    rcases evalLoop_run E code _ (code.drop s.1) s.1 s.2 (Nat.le_refl _) rfl with ⟨v, h1, h2⟩ | ⟨id, args, pos, st, h1, h2⟩
    · rw [h1, h2]; rfl
    · rw [h1, h2]; rfl
  | cons a as ih =>
    intro s
    unfold playCode evalExpr
    rcases evalLoop_run E code _ (code.drop s.1) s.1 s.2 (Nat.le_refl _) rfl with ⟨v, h1, h2⟩ | ⟨id, args, pos, st, h1, h2⟩
    · rw [h1, h2]; rfl
    · rw [h1, h2]; simp only [Act.play]; rw [ih]

theorem run_ex (E : Env X K V) (e : Ex X K) : run E e.code [] = e.meaning E := by
  have := run_code E e [] []
  rw [List.append_nil] at this
  rw [this]
  have : (fun v => run E [] [v]) = Act.ret := by funext v; rw [run]; rfl
  rw [this, Act.bind_ret]

/-! ## A host that answers each call -/

def Act.serve (host : Nat → List V → V) : Act V → List (Nat × List V) × V
  | .ret v => ([], v)
  | .call id args k => ((id, args) :: ((k (host id args)).serve host).1, ((k (host id args)).serve host).2)

theorem serve_bind (host : Nat → List V → V) (a : Act V) (f : V → Act V) :
    (a.bind f).serve host = ((a.serve host).1 ++ ((f (a.serve host).2).serve host).1, ((f (a.serve host).2).serve host).2) := by
  induction a with
  | ret v => simp [Act.bind, Act.serve]
  | call id args k ih => simp [Act.bind, Act.serve, ih]

theorem play_serve (host : Nat → List V → V) (a : Act V) :
    a.play ((a.serve host).1.map fun c => host c.1 c.2) = ((a.serve host).1, some (a.serve host).2) := by
  induction a with
  | ret v => rfl
  | call id args k ih => simp [Act.serve, Act.play, ih]

mutual
theorem serve_meaning (E : Env X K V) (host : Nat → List V → V) : (e : Ex X K) → (e.meaning E).serve host = e.eval E host
  | .var x => rfl
  | .lit k => rfl
  | .un o e => by simp [Ex.meaning, Ex.eval, serve_bind, serve_meaning E host e, Act.serve]
  | .bin o a b => by
    have hb := serve_meaning E host b
    simp only [Ex.meaning, Ex.eval, serve_bind, serve_meaning E host a]
    cases o <;> simp only
    case and => by_cases h : E.toBool (a.eval E host).2 = true <;> simp [h, serve_bind, hb, Act.serve]
    case or => by_cases h : E.toBool (a.eval E host).2 = true <;> simp [h, serve_bind, hb, Act.serve]
    all_goals simp [serve_bind, hb, Act.serve]
  | .call id es => by
    simp only [Ex.meaning, Ex.eval, serve_meanings E host es]
    cases E.func id <;> simp [Act.serve]
  | .index a i => by simp [Ex.meaning, Ex.eval, serve_bind, serve_meaning E host a, serve_meaning E host i, Act.serve]
  | .build es => by simp [Ex.meaning, Ex.eval, serve_meanings E host es, Act.serve]
theorem serve_meanings (E : Env X K V) (host : Nat → List V → V) : (es : Exs X K) → (f : List V → Act V) →
    (es.meanings E f).serve host = ((es.evals E host).1 ++ ((f (es.evals E host).2).serve host).1, ((f (es.evals E host).2).serve host).2)
  | .nil, f => by simp [Exs.meanings, Exs.evals]
  | .cons e es, f => by
    simp [Exs.meanings, Exs.evals, serve_bind, serve_meaning E host e, serve_meanings E host es]
end

/-! ## The tree is determined by the code -/

/-- Reading postfix code back. -/
def decode : List (Code X K) → List (Ex X K) → List (Ex X K)
  | [], st => st
  | .var x :: l, st => decode l (.var x :: st)
  | .lit k :: l, st => decode l (.lit k :: st)
  | .un o :: l, e :: st => decode l (.un o e :: st)
  | .bin o :: l, b :: a :: st => decode l (.bin o a b :: st)
  | .jmpIf _ _ :: l, st => decode l st
  | .func id n :: l, st => decode l (.call id ((st.take n).foldl (fun es e => .cons e es) .nil) :: st.drop n)
  | .access :: l, i :: a :: st => decode l (.index a i :: st)
  | .build n :: l, st => decode l (.build ((st.take n).foldl (fun es e => .cons e es) .nil) :: st.drop n)
  | _ :: _, _ => []

def Exs.toList : Exs X K → List (Ex X K)
  | .nil => []
  | .cons e es => e :: es.toList

theorem toList_length : (es : Exs X K) → es.toList.length = es.length
  | .nil => rfl
  | .cons _ es => by simp [Exs.toList, Exs.length, toList_length es]

theorem foldr_toList : (es : Exs X K) → es.toList.foldr (fun e es => .cons e es) .nil = es
  | .nil => rfl
  | .cons e es => by simp [Exs.toList, foldr_toList es]

theorem take_args (es : Exs X K) (st : List (Ex X K)) :
    ((es.toList.reverse ++ st).take es.length).foldl (fun es e => .cons e es) .nil = es := by
  rw [List.take_append_of_le_length (by simp [toList_length]), List.take_of_length_le (by simp [toList_length]),
    List.foldl_reverse, foldr_toList]

theorem drop_args (es : Exs X K) (st : List (Ex X K)) : (es.toList.reverse ++ st).drop es.length = st := by
  have : es.length = es.toList.reverse.length := by simp [toList_length]
  rw [this, List.drop_left]

mutual
theorem decode_code : (e : Ex X K) → (rest : List (Code X K)) → (st : List (Ex X K)) →
    decode (e.code ++ rest) st = decode rest (e :: st)
  | .var x, rest, st => by simp [Ex.code, decode]
  | .lit k, rest, st => by simp [Ex.code, decode]
  | .un o e, rest, st => by simp [Ex.code, decode_code e, decode]
  | .bin o a b, rest, st => by
    have hb := decode_code b
    cases o <;> simp [Ex.code, binCode, jumpOf, decode_code a, hb, decode]
  | .call id es, rest, st => by simp [Ex.code, decode_codes es, decode, take_args, drop_args]
  | .index a i, rest, st => by simp [Ex.code, decode_code a, decode_code i, decode]
  | .build es, rest, st => by simp [Ex.code, decode_codes es, decode, take_args, drop_args]
theorem decode_codes : (es : Exs X K) → (rest : List (Code X K)) → (st : List (Ex X K)) →
    decode (es.code ++ rest) st = decode rest (es.toList.reverse ++ st)
  | .nil, rest, st => by simp [Exs.code, Exs.toList]
  | .cons e es, rest, st => by simp [Exs.code, Exs.toList, decode_code e, decode_codes es]
end

theorem code_injective {e e' : Ex X K} (h : e.code = e'.code) : e = e' := by
  have h1 := decode_code e [] []
  have h2 := decode_code e' [] []
  rw [h, h2] at h1
  simpa [decode] using h1.symm

/-! ## Skipped operators -/

theorem boolean_eval {E : Env X K V} {bit} (h : Logical E bit) (host : Nat → List V → V) : ∀ e : Ex X K, e.boolean = true →
    ∃ b, (e.eval E host).2 = bit b := by
  intro e
  induction e using Ex.rec (motive_2 := fun _ => True) with
  | var | lit | call | index | build => intro hb; simp [Ex.boolean] at hb
  | un o e => intro hb; cases o <;> simp [Ex.boolean] at hb; exact ⟨!E.toBool (e.eval E host).2, by simp [Ex.eval, h.not]⟩
  | bin o a b iha =>
    intro hb
    by_cases ho : o ∈ [BinOp.xor, .eq, .ne, .lt, .le, .gt, .ge]
    · obtain ⟨c, hc⟩ := h.other o ho (a.eval E host).2 (b.eval E host).2
      refine ⟨c, ?_⟩
      cases o <;> first | exact hc | (simp at ho)
    · have ha : a.boolean = true := by
        simp only [Ex.boolean, Bool.or_eq_true, decide_eq_true_eq, Bool.and_eq_true] at hb
        rcases hb with hb | hb
        · exact absurd hb ho
        · exact hb.2
      obtain ⟨c, hc⟩ := iha ha
      cases o <;> first | (simp at ho; done) | skip
      all_goals first | (simp [Ex.boolean] at hb; done) | skip
      · simp only [Ex.eval, hc, h.truth]
        cases c
        · exact ⟨_, by simpa using hc⟩
        · exact ⟨_, by simp [h.and]; rfl⟩
      · simp only [Ex.eval, hc, h.truth]
        cases c
        · exact ⟨_, by simp [h.or]; rfl⟩
        · exact ⟨_, by simpa using hc⟩
  | nil | cons => trivial

mutual
theorem tidy_full {E : Env X K V} {bit} (h : Logical E bit) (host : Nat → List V → V) : (e : Ex X K) → e.tidy = true →
    (e.eval E host).2 = e.full E host
  | .var x, _ => rfl
  | .lit k, _ => rfl
  | .un o e, ht => by simp only [Ex.tidy] at ht; simp [Ex.eval, Ex.full, tidy_full h host e ht]
  | .bin o a b, ht => by
    simp only [Ex.tidy, Bool.and_eq_true] at ht
    obtain ⟨⟨h1, h2⟩, h3⟩ := ht
    have ea := tidy_full h host a h1
    have eb := tidy_full h host b h2
    have hb := boolean_eval h host a
    have h4 : o = .and ∨ o = .or → ∃ b, (a.eval E host).2 = bit b := fun ho => hb (by
      rcases ho with rfl | rfl <;> simpa using h3)
    cases o
    case and =>
      obtain ⟨c, hc⟩ := h4 (.inl rfl)
      simp only [Ex.eval, Ex.full, ← ea, ← eb, hc, h.truth, h.and]
      cases c <;> simp [hc]
    case or =>
      obtain ⟨c, hc⟩ := h4 (.inr rfl)
      simp only [Ex.eval, Ex.full, ← ea, ← eb, hc, h.truth, h.or]
      cases c <;> simp [hc]
    all_goals simp [Ex.eval, Ex.full, ea, eb]
  | .call id es, ht => by
    simp only [Ex.tidy] at ht
    simp only [Ex.eval, Ex.full, ← tidys_fulls h host es ht]
    cases E.func id <;> rfl
  | .index a i, ht => by
    simp only [Ex.tidy, Bool.and_eq_true] at ht
    simp [Ex.eval, Ex.full, tidy_full h host a ht.1, tidy_full h host i ht.2]
  | .build es, ht => by
    simp only [Ex.tidy] at ht
    simp [Ex.eval, Ex.full, tidys_fulls h host es ht]
theorem tidys_fulls {E : Env X K V} {bit} (h : Logical E bit) (host : Nat → List V → V) : (es : Exs X K) → es.tidys = true →
    (es.evals E host).2 = es.fulls E host
  | .nil, _ => rfl
  | .cons e es, ht => by
    simp only [Exs.tidys, Bool.and_eq_true] at ht
    simp [Exs.evals, Exs.fulls, tidy_full h host e ht.1, tidys_fulls h host es ht.2]
end

end Sieve.Expr
