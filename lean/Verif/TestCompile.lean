import Verif.CompileTargets

/-!
# What `parse_test` emits for a nested test

Test expressions as trees, their token sequences, and the code a textbook compiler would emit for
them (no jump lists, no patching, no block stack).  `parse_render` shows that `parse_test` emits
exactly that code for every expression within the nesting limit.
-/

namespace Sieve.Compile

/-- Atomic tests. -/
inductive Atom (A T E : Type) where
  | tru | fls
  | leaf (t : T)
  | ev (e : E)
  | bad (a : A)

mutual
/-- Test expressions. -/
inductive TestE (A T E : Type) where
  | atom (a : Atom A T E)
  | not (e : TestE A T E)
  | any (l : Tests A T E)
  | all (l : Tests A T E)
/-- Non-empty lists of test expressions. -/
inductive Tests (A T E : Type) where
  | one (e : TestE A T E)
  | cons (e : TestE A T E) (l : Tests A T E)
end

variable {A T E : Type}

/-! ## Source text -/

def Atom.tok : Atom A T E → Tok A T E
  | .tru => .ktrue
  | .fls => .kfalse
  | .leaf t => .leaf t
  | .ev e => .ev e
  | .bad a => .bad a

mutual
/-- The tokens of a test expression. -/
def TestE.toks : TestE A T E → List (Tok A T E)
  | .atom a => [a.tok]
  | .not e => .knot :: e.toks
  | .any l => .kanyof :: .popen :: (l.toks ++ [.pclose])
  | .all l => .kallof :: .popen :: (l.toks ++ [.pclose])
def Tests.toks : Tests A T E → List (Tok A T E)
  | .one e => e.toks
  | .cons e l => e.toks ++ .comma :: l.toks
end

mutual
/-- Nesting depth of `anyof` and `allof`. -/
def TestE.depth : TestE A T E → Nat
  | .atom _ => 0
  | .not e => e.depth
  | .any l => l.depth + 1
  | .all l => l.depth + 1
def Tests.depth : Tests A T E → Nat
  | .one e => e.depth
  | .cons e l => max e.depth l.depth
end

/-! ## Code -/

/-- The instruction of an atomic test, negated if `neg`. -/
def Atom.op (neg : Bool) : Atom A T E → Op A T E
  | .tru => if neg then .fls else .tru
  | .fls => if neg then .tru else .fls
  | .leaf t => .test t neg
  | .ev e => .eval e neg
  | .bad a => .bad a

mutual
/-- Number of instructions of a test. -/
def TestE.len : TestE A T E → Nat
  | .atom _ => 1
  | .not e => e.len
  | .any l => l.len
  | .all l => l.len
def Tests.len : Tests A T E → Nat
  | .one e => e.len
  | .cons e l => e.len + 1 + l.len
end

/-- The jump out of a list: on false for a conjunction, on true for a disjunction. -/
def cjump (isAll : Bool) (t : Nat) : Op A T E := if isAll then .jz t else .jnz t

mutual
/-- The code of a test (of its negation if `neg`), placed at position `n`. -/
def TestE.code (neg : Bool) (n : Nat) : TestE A T E → List (Op A T E)
  | .atom a => [a.op neg]
  | .not e => e.code (!neg) n
  | .any l => l.code neg neg n (n + l.len)
  | .all l => l.code (!neg) neg n (n + l.len)
def Tests.code (isAll neg : Bool) (n tgt : Nat) : Tests A T E → List (Op A T E)
  | .one e => e.code neg n
  | .cons e l => e.code neg n ++ cjump isAll tgt :: l.code isAll neg (n + e.len + 1) tgt
end

/-! ## Lemmas -/

mutual
theorem TestE.code_length (neg : Bool) (n : Nat) : ∀ e : TestE A T E, (e.code neg n).length = e.len
  | .atom a => by simp [TestE.code, TestE.len]
  | .not e => by rw [TestE.code, TestE.len, TestE.code_length]
  | .any l => by rw [TestE.code, TestE.len, Tests.code_length]
  | .all l => by rw [TestE.code, TestE.len, Tests.code_length]
theorem Tests.code_length (isAll neg : Bool) (n tgt : Nat) : ∀ l : Tests A T E,
    (l.code isAll neg n tgt).length = l.len
  | .one e => by rw [Tests.code, Tests.len, TestE.code_length]
  | .cons e l => by
    rw [Tests.code, Tests.len, List.length_append, TestE.code_length, List.length_cons, Tests.code_length]
    omega
end

mutual
theorem TestE.toks_ident : ∀ (e : TestE A T E) (rest), startsIdent (e.toks ++ rest) = true
  | .atom a, rest => by cases a <;> rfl
  | .not e, rest => rfl
  | .any l, rest => rfl
  | .all l, rest => rfl
theorem Tests.toks_ident : ∀ (l : Tests A T E) (rest), startsIdent (l.toks ++ rest) = true
  | .one e, rest => by rw [Tests.toks]; exact e.toks_ident rest
  | .cons e l, rest => by
    rw [Tests.toks, List.append_assoc]
    exact e.toks_ident _
end

theorem lastIsTest_append (ops : List (Op A T E)) {l : List (Op A T E)} (h : lastIsTest l = true) :
    lastIsTest (ops ++ l) = true := by
  have hne : l ≠ [] := by
    rintro rfl
    simp [lastIsTest] at h
  unfold lastIsTest at *
  rwa [show (ops ++ l).getLast? = l.getLast? by
    rw [List.getLast?_append]
    cases hl : l.getLast? with
    | none => exact absurd (List.getLast?_eq_none_iff.mp hl) hne
    | some x => rfl]

mutual
theorem TestE.code_last (neg : Bool) (n : Nat) : ∀ e : TestE A T E, lastIsTest (e.code neg n) = true
  | .atom a => by cases a <;> cases neg <;> rfl
  | .not e => by rw [TestE.code]; exact e.code_last _ _
  | .any l => by rw [TestE.code]; exact l.code_last _ _ _ _
  | .all l => by rw [TestE.code]; exact l.code_last _ _ _ _
theorem Tests.code_last (isAll neg : Bool) (n tgt : Nat) : ∀ l : Tests A T E,
    lastIsTest (l.code isAll neg n tgt) = true
  | .one e => by rw [Tests.code]; exact e.code_last _ _
  | .cons e l => by
    rw [Tests.code, ← List.singleton_append, ← List.append_assoc]
    exact lastIsTest_append _ (l.code_last _ _ _ _)
end

/-- Positions of the jumps of a list. -/
def Tests.jmps (n : Nat) : Tests A T E → List Nat
  | .one _ => []
  | .cons e l => (n + e.len) :: l.jmps (n + e.len + 1)

theorem setTest_at (pre post : List (Op A T E)) (isAll : Bool) (t v : Nat) :
    setTest v (pre ++ cjump isAll t :: post) pre.length = pre ++ cjump isAll v :: post := by
  cases isAll <;> simp [setTest, cjump]

theorem Tests.patch (isAll neg : Bool) (t v : Nat) : ∀ (l : Tests A T E) (pre : List (Op A T E)),
    patchTest (pre ++ l.code isAll neg pre.length t) (l.jmps pre.length) v
      = pre ++ l.code isAll neg pre.length v
  | .one e, pre => by simp [Tests.code, Tests.jmps, patchTest]
  | .cons e l, pre => by
    have h1 := setTest_at (pre ++ e.code neg pre.length) (l.code isAll neg (pre.length + e.len + 1) t) isAll t v
    have hl : (pre ++ e.code neg pre.length).length = pre.length + e.len := by
      rw [List.length_append, TestE.code_length]
    rw [hl] at h1
    have h2 := Tests.patch isAll neg t v l (pre ++ e.code neg pre.length ++ [cjump isAll v])
    have hl2 : (pre ++ e.code neg pre.length ++ [cjump isAll v] : List (Op A T E)).length = pre.length + e.len + 1 := by
      rw [List.length_append, hl]
      rfl
    rw [hl2] at h2
    rw [Tests.jmps, patchTest, List.foldl_cons, Tests.code, ← List.append_assoc, h1, Tests.code]
    have := h2
    rw [patchTest] at this
    simp only [List.append_assoc, List.singleton_append] at this ⊢
    exact this

/-- The value of `is_not` after a test has been read. -/
def TestE.after (neg : Bool) (blockNot : Bool) : TestE A T E → Bool
  | .atom .tru => false
  | .atom .fls => false
  | .atom _ => neg
  | .not e => e.after (!neg) blockNot
  | .any _ => blockNot
  | .all _ => blockNot

theorem parseLoop_pclose (m : Nat) (ts : List (Tok A T E)) (ops b st n) :
    parseLoop m (.pclose :: ts) ops b st n =
      if 0 < b.pCount then parseLoop m ts ops { b with pCount := b.pCount - 1 } st n
      else match st with
        | [] => none
        | prev :: st =>
          let ops := patchTest ops b.jmps ops.length
          if st.isEmpty then some (ts, ops ++ [.jz maxPos]) else parseLoop m ts ops prev st prev.isNot := by
  rw [parseLoop.eq_def]
  rfl

theorem parseLoop_any (m : Nat) (ts : List (Tok A T E)) (ops b st n) (h : st.length < m) :
    parseLoop m (.kanyof :: .popen :: ts) ops b st n = parseLoop m ts ops ⟨n, n, 0, []⟩ (b :: st) n := by
  rw [parseLoop.eq_def]
  simp [h]

theorem parseLoop_all (m : Nat) (ts : List (Tok A T E)) (ops b st n) (h : st.length < m) :
    parseLoop m (.kallof :: .popen :: ts) ops b st n = parseLoop m ts ops ⟨!n, n, 0, []⟩ (b :: st) n := by
  rw [parseLoop.eq_def]
  simp [h]

mutual
theorem TestE.parse {maxTests : Nat} : ∀ (e : TestE A T E) (neg : Bool) (ops : List (Op A T E)) (b : TBlock)
    (st : List TBlock) (rest : List (Tok A T E)), b.pCount = 0 → st.length + e.depth ≤ maxTests →
    parseLoop maxTests (e.toks ++ rest) ops b st neg =
      if st.isEmpty then some (rest, ops ++ e.code neg ops.length ++ [.jz maxPos])
      else parseLoop maxTests rest (ops ++ e.code neg ops.length) b st (e.after neg b.isNot)
  | .atom a, neg, ops, b, st, rest, hb, hd => by
    obtain ⟨isAll, isNot, pc, js⟩ := b
    simp only at hb
    subst hb
    cases a <;> cases neg <;> cases st <;>
      simp [TestE.toks, Atom.tok, parseLoop, Compile.atom, TestE.code, Atom.op, TestE.after, Op.setNot] <;> rfl
  | .not e, neg, ops, b, st, rest, hb, hd => by
    rw [TestE.toks, List.cons_append, parseLoop, if_pos (e.toks_ident rest), TestE.parse e _ _ _ _ _ hb hd]
    rfl
  | .any l, neg, ops, b, st, rest, hb, hd => by
    rw [TestE.depth] at hd
    rw [TestE.toks]
    simp only [List.cons_append, List.append_assoc, List.nil_append]
    rw [parseLoop_any _ _ _ _ _ _ (by omega), Tests.parse l neg neg neg [] ops (b :: st) rest (by simp; omega) (by simp),
      parseLoop_pclose]
    simp only [Nat.lt_irrefl, if_false, List.nil_append]
    rw [List.length_append, Tests.code_length, Tests.patch, List.append_assoc]
    rfl
  | .all l, neg, ops, b, st, rest, hb, hd => by
    rw [TestE.depth] at hd
    rw [TestE.toks]
    simp only [List.cons_append, List.append_assoc, List.nil_append]
    rw [parseLoop_all _ _ _ _ _ _ (by omega), Tests.parse l (!neg) neg neg [] ops (b :: st) rest (by simp; omega) (by simp),
      parseLoop_pclose]
    simp only [Nat.lt_irrefl, if_false, List.nil_append]
    rw [List.length_append, Tests.code_length, Tests.patch, List.append_assoc]
    rfl
theorem Tests.parse {maxTests : Nat} : ∀ (l : Tests A T E) (isAll neg i : Bool) (js : List Nat)
    (ops : List (Op A T E)) (st : List TBlock) (rest : List (Tok A T E)),
    st.length + l.depth ≤ maxTests → st ≠ [] →
    parseLoop maxTests (l.toks ++ .pclose :: rest) ops ⟨isAll, neg, 0, js⟩ st neg =
      parseLoop maxTests (.pclose :: rest) (ops ++ l.code isAll neg ops.length maxPos)
        ⟨isAll, neg, 0, js ++ l.jmps ops.length⟩ st i
  | .one e, isAll, neg, i, js, ops, st, rest, hd, hne => by
    rw [Tests.depth] at hd
    rw [Tests.toks, TestE.parse e neg ops _ st _ rfl hd, if_neg (by simpa using hne)]
    rw [Tests.code, Tests.jmps, List.append_nil]
    rw [parseLoop_pclose, parseLoop_pclose]
    simp only [Nat.lt_irrefl, if_false]
  | .cons e l, isAll, neg, i, js, ops, st, rest, hd, hne => by
    rw [Tests.depth] at hd
    rw [Tests.toks, List.append_assoc, TestE.parse e neg ops _ st _ rfl (by omega), if_neg (by simpa using hne)]
    rw [List.cons_append, parseLoop, if_pos (by
      simp only [Bool.and_eq_true]
      exact ⟨⟨by simpa using hne, lastIsTest_append _ (e.code_last _ _)⟩, l.toks_ident _⟩)]
    simp only
    rw [Tests.parse l isAll neg i _ _ st rest (by omega) hne]
    have hlen : (ops ++ e.code neg ops.length ++ [if isAll then Op.jz maxPos else Op.jnz maxPos] : List (Op A T E)).length
        = ops.length + e.len + 1 := by
      rw [List.length_append, List.length_append, TestE.code_length]
      rfl
    rw [hlen, Tests.code, Tests.jmps, List.length_append, TestE.code_length]
    simp only [List.append_assoc, List.singleton_append]
    rfl
end

/-- `parse_test` emits the code of the expression followed by the jump over the block. -/
theorem parse_render {maxTests : Nat} (e : TestE A T E) (ops : List (Op A T E)) (rest : List (Tok A T E))
    (hd : e.depth ≤ maxTests) :
    parseTest maxTests (e.toks ++ rest) ops = some (rest, ops ++ e.code false ops.length ++ [.jz maxPos]) := by
  rw [parseTest, TestE.parse e _ _ _ _ _ rfl (by simpa using hd)]
  rfl

end Sieve.Compile
