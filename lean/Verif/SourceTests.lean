import Verif.SourceStep

/-!
# C05: the code of a test computes its boolean value

The meaning of `anyof`, `allof` and `not` is given twice: `evalTest` evaluates the atomic tests from left
to right, threading the interpreter's state through them and stopping as soon as the result is known;
`TestE.value` is the boolean value alone.
-/

namespace Sieve.Source

open Sieve.Vm Sieve.Compile

variable {W V P A T E : Type} {cfg : Cfg W V P} {code : List (Op A T E)}

mutual
/-- The boolean value of a test expression, given the outcomes of atomic tests. -/
def _root_.Sieve.Compile.TestE.value (v : Atom A T E → Bool) : TestE A T E → Bool
  | .atom a => v a
  | .not e => !e.value v
  | .any l => l.values v |>.any id
  | .all l => l.values v |>.all id
def _root_.Sieve.Compile.Tests.values (v : Atom A T E → Bool) : Tests A T E → List Bool
  | .one e => [e.value v]
  | .cons e l => e.value v :: l.values v
end

mutual
def _root_.Sieve.Compile.TestE.atoms : TestE A T E → List (Atom A T E)
  | .atom a => [a]
  | .not e => e.atoms
  | .any l => l.atoms
  | .all l => l.atoms
def _root_.Sieve.Compile.Tests.atoms : Tests A T E → List (Atom A T E)
  | .one e => e.atoms
  | .cons e l => e.atoms ++ l.atoms
end

/-- An atomic test that neither asks the host nor fails: its outcome and the state after it. -/
def evalAtom (I : Interp cfg A T E) (a : Atom A T E) (c : Ctx W V P) : Option (Bool × Ctx W V P) :=
  match exec cfg c (I.atom a) with
  | .cont c => some (c.testResult, c)
  | .ret _ _ => none

mutual
/-- Evaluation from left to right, no further than necessary. -/
def evalTest (I : Interp cfg A T E) : TestE A T E → Ctx W V P → Option (Bool × Ctx W V P)
  | .atom a, c => evalAtom I a c
  | .not e, c => (evalTest I e c).map fun r => (!r.1, r.2)
  | .any l, c => evalTests I false l c
  | .all l, c => evalTests I true l c
/-- A conjunction (`isAll`) goes on after `true`, a disjunction after `false`. -/
def evalTests (I : Interp cfg A T E) (isAll : Bool) : Tests A T E → Ctx W V P → Option (Bool × Ctx W V P)
  | .one e, c => evalTest I e c
  | .cons e l, c =>
    match evalTest I e c with
    | none => none
    | some (b, c) => if b = isAll then evalTests I isAll l c else some (b, c)
end

/-- A number of passes of the interpreter without returning to the host. -/
inductive Passes (cfg : Cfg W V P) : Ctx W V P → Ctx W V P → Prop where
  | refl {c} : Passes cfg c c
  | head {c c' c''} : step cfg c = .cont c' → Passes cfg c' c'' → Passes cfg c c''

theorem Passes.trans {c c' c'' : Ctx W V P} (h : Passes cfg c c') (h' : Passes cfg c' c'') : Passes cfg c c'' := by
  induction h with
  | refl => exact h'
  | head h _ ih => exact .head h (ih h')

/-- The place of the interpreter after `k` instructions. -/
def upto (r : Place W V P) (p k : Nat) (t : Bool) : Place W V P := ⟨p, r.numInstr + k, t, r.stack⟩

theorem pass_exec {c : Ctx W V P} {r : Place W V P} {fr st op} (I : Interp cfg A T E) (hs : r.stack = fr :: st)
    (hc : fr.script.instrs = code.map I.lower) (ho : code[r.pos]? = some op) (hn : r.numInstr + 1 ≤ cfg.cpuLimit) :
    step cfg (move r c) = exec cfg (move { r with pos := r.pos + 1, numInstr := r.numInstr + 1 } c) (I.lower op) := by
  unfold step
  rw [show (move r c).stack = fr :: st from hs]
  simp only
  rw [show (move r c).pos = r.pos from rfl, hc, List.getElem?_map, ho]
  simp only [Option.map_some]
  rw [show (move r c).numInstr = r.numInstr from rfl, if_neg (by omega)]
  simp only [move, hs]

theorem atom_pass {c c' : Ctx W V P} {r : Place W V P} {fr st b a n} (I : Interp cfg A T E) (hs : r.stack = fr :: st)
    (hc : fr.script.instrs = code.map I.lower) (ho : code[r.pos]? = some (Atom.op n a)) (hn : r.numInstr + 1 ≤ cfg.cpuLimit)
    (he : evalAtom I a c = some (b, c')) :
    step cfg (move r c) = .cont (move (upto r (r.pos + 1) 1 (b ^^ n)) c') := by
  rw [pass_exec I hs hc ho hn]
  have := atom_twin I c { r with pos := r.pos + 1, numInstr := r.numInstr + 1 } a n
  unfold evalAtom at he
  generalize exec cfg (move _ c) (I.lower (Atom.op n a)) = x at this ⊢
  cases hx : exec cfg c (I.atom a) with
  | ret o d => rw [hx] at he; cases he
  | cont d =>
    rw [hx] at he this
    simp only [Option.some.injEq, Prod.mk.injEq] at he
    obtain ⟨rfl, rfl⟩ := he
    cases this with
    | cont _ _ => rfl

mutual
theorem test_passes (I : Interp cfg A T E) {fr : Frame W V P} {st} (hc : fr.script.instrs = code.map I.lower) :
    ∀ (e : TestE A T E) {c c' : Ctx W V P} {r : Place W V P} {b n}, r.stack = fr :: st →
      Has code r.pos (e.code n r.pos) → r.numInstr + e.len ≤ cfg.cpuLimit → evalTest I e c = some (b, c') →
      ∃ k, 0 < k ∧ k ≤ e.len ∧ Passes cfg (move r c) (move (upto r (r.pos + e.len) k (b ^^ n)) c')
  | .atom a, c, c', r, b, n, hs, hh, hn, he => by
    simp only [TestE.code, Has, TestE.len] at hh hn ⊢
    rw [evalTest] at he
    exact ⟨1, by omega, by omega, .head (atom_pass I hs hc hh.1 hn he) .refl⟩
  | .not e, c, c', r, b, n, hs, hh, hn, he => by
    rw [evalTest, Option.map_eq_some_iff] at he
    obtain ⟨⟨b', c1⟩, h1, h2⟩ := he
    simp only [Prod.mk.injEq] at h2
    obtain ⟨rfl, rfl⟩ := h2
    rw [TestE.code] at hh
    rw [TestE.len] at hn ⊢
    obtain ⟨k, k0, k1, k2⟩ := test_passes I hc e hs hh hn h1
    refine ⟨k, k0, k1, ?_⟩
    rw [show ((!b') ^^ n) = (b' ^^ !n) by cases b' <;> cases n <;> rfl]
    exact k2
  | .any l, c, c', r, b, n, hs, hh, hn, he => by
    rw [evalTest] at he
    rw [TestE.code] at hh
    rw [TestE.len] at hn ⊢
    exact tests_passes I hc l (isAll := false) hs (by simpa using hh) rfl hn he
  | .all l, c, c', r, b, n, hs, hh, hn, he => by
    rw [evalTest] at he
    rw [TestE.code] at hh
    rw [TestE.len] at hn ⊢
    exact tests_passes I hc l (isAll := true) hs (by simpa using hh) rfl hn he
theorem tests_passes (I : Interp cfg A T E) {fr : Frame W V P} {st} (hc : fr.script.instrs = code.map I.lower) :
    ∀ (l : Tests A T E) {c c' : Ctx W V P} {r : Place W V P} {b n isAll q}, r.stack = fr :: st →
      Has code r.pos (l.code (isAll ^^ n) n r.pos q) → q = r.pos + l.len → r.numInstr + l.len ≤ cfg.cpuLimit →
      evalTests I isAll l c = some (b, c') →
      ∃ k, 0 < k ∧ k ≤ l.len ∧ Passes cfg (move r c) (move (upto r (r.pos + l.len) k (b ^^ n)) c')
  | .one e, c, c', r, b, n, isAll, q, hs, hh, hq, hn, he => by
    rw [evalTests] at he
    rw [Tests.code] at hh
    rw [Tests.len] at hn ⊢
    exact test_passes I hc e hs hh hn he
  | .cons e l, c, c', r, b, n, isAll, q, hs, hh, hq, hn, he => by
    rw [evalTests] at he
    rw [Tests.code, has_append, TestE.code_length] at hh
    obtain ⟨h1, h2, h3⟩ := hh
    rw [Tests.len] at hn hq ⊢
    cases h0 : evalTest I e c with
    | none => rw [h0] at he; cases he
    | some x =>
      obtain ⟨b1, c1⟩ := x
      rw [h0] at he
      simp only at he
      obtain ⟨k, k0, k1, k2⟩ := test_passes I hc e hs h1 (by omega) h0
      -- the jump
      have hj : step cfg (move (upto r (r.pos + e.len) k (b1 ^^ n)) c1) =
          .cont (move (upto r (if b1 = isAll then r.pos + e.len + 1 else q) (k + 1) (b1 ^^ n)) c1) := by
        rw [pass_exec I (r := upto r (r.pos + e.len) k (b1 ^^ n)) hs hc h2 (by simp only [upto]; omega)]
        cases b1 <;> cases n <;> cases isAll <;> rfl
      by_cases hb : b1 = isAll
      · rw [if_pos hb] at he hj
        obtain ⟨j, j0, j1, j2⟩ := tests_passes I hc l (r := upto r (r.pos + e.len + 1) (k + 1) (b1 ^^ n)) (q := q)
          hs h3 (by simp only [upto]; omega) (by simp only [upto]; omega) he
        refine ⟨k + 1 + j, by omega, by omega, k2.trans (.head hj ?_)⟩
        simp only [upto] at j2 ⊢
        rw [show r.pos + (e.len + 1 + l.len) = r.pos + e.len + 1 + l.len by omega,
          show r.numInstr + (k + 1 + j) = r.numInstr + (k + 1) + j by omega]
        exact j2
      · rw [if_neg hb] at he hj
        simp only [Option.some.injEq, Prod.mk.injEq] at he
        obtain ⟨rfl, rfl⟩ := he
        refine ⟨k + 1, by omega, by omega, k2.trans (.head hj ?_)⟩
        rw [hq]
        exact .refl
end

mutual
theorem eval_value (I : Interp cfg A T E) {v : Atom A T E → Bool} :
    ∀ (e : TestE A T E) (c : Ctx W V P), (∀ a ∈ e.atoms, ∀ c, ∃ c', evalAtom I a c = some (v a, c')) →
      ∃ c', evalTest I e c = some (e.value v, c')
  | .atom a, c, hv => by
    rw [evalTest]
    exact hv a (by simp [TestE.atoms]) c
  | .not e, c, hv => by
    obtain ⟨c', h⟩ := eval_value I e c (by simpa [TestE.atoms] using hv)
    exact ⟨c', by rw [evalTest, h]; rfl⟩
  | .any l, c, hv => by
    obtain ⟨c', h⟩ := evals_value I l false c (by simpa [TestE.atoms] using hv)
    exact ⟨c', by rw [evalTest, h]; rfl⟩
  | .all l, c, hv => by
    obtain ⟨c', h⟩ := evals_value I l true c (by simpa [TestE.atoms] using hv)
    exact ⟨c', by rw [evalTest, h]; rfl⟩
theorem evals_value (I : Interp cfg A T E) {v : Atom A T E → Bool} :
    ∀ (l : Tests A T E) (isAll : Bool) (c : Ctx W V P), (∀ a ∈ l.atoms, ∀ c, ∃ c', evalAtom I a c = some (v a, c')) →
      ∃ c', evalTests I isAll l c = some (if isAll then (l.values v).all id else (l.values v).any id, c')
  | .one e, isAll, c, hv => by
    obtain ⟨c', h⟩ := eval_value I e c (by simpa [Tests.atoms] using hv)
    exact ⟨c', by rw [evalTests, h]; cases isAll <;> simp [Tests.values]⟩
  | .cons e l, isAll, c, hv => by
    obtain ⟨c1, h⟩ := eval_value I e c fun a ha => hv a (by simp [Tests.atoms, ha])
    rw [evalTests, h]
    obtain ⟨c', h'⟩ := evals_value I l isAll c1 fun a ha => hv a (by simp [Tests.atoms, ha])
    by_cases hb : e.value v = isAll
    · refine ⟨c', ?_⟩
      simp only [if_pos hb, h']
      rw [Tests.values, hb]
      cases isAll <;> simp
    · refine ⟨c1, ?_⟩
      simp only [if_neg hb]
      rw [Tests.values]
      cases isAll <;> simp_all
end

theorem move_self (c : Ctx W V P) : move ⟨c.pos, c.numInstr, c.testResult, c.stack⟩ c = c := rfl

/-- **C05.** Let `parse_test` turn the text of `e` into instructions, appended to `pre`, followed by the
conditional jump to be patched.  When the interpreter reaches them, it evaluates the atomic tests from
left to right, no further than necessary (`evalTest`), and arrives at that conditional jump with the
outcome as test result and the state the atomic tests have left, having executed at most one instruction
per instruction of the code. -/
theorem test_runs (I : Interp cfg A T E) {maxTests : Nat} {e : TestE A T E} {pre out tail : List (Op A T E)} {rest rest'}
    (hd : e.depth ≤ maxTests) (hp : parseTest maxTests (e.toks ++ rest) pre = some (rest', out ++ [.jz maxPos]))
    {m c' : Ctx W V P} {fr st b} (hs : m.stack = fr :: st) (hc : fr.script.instrs = (out ++ tail).map I.lower)
    (hm : m.pos = pre.length) (he : evalTest I e m = some (b, c')) (hn : m.numInstr + out.length ≤ cfg.cpuLimit + pre.length) :
    rest' = rest ∧ ∃ k, pre.length + k ≤ out.length ∧
      Passes cfg m { c' with pos := out.length, numInstr := m.numInstr + k, testResult := b, stack := m.stack } := by
  rw [parse_render e pre rest hd] at hp
  simp only [Option.some.injEq, Prod.mk.injEq, List.append_left_inj] at hp
  obtain ⟨rfl, rfl⟩ := hp
  refine ⟨rfl, ?_⟩
  have hh : Has (pre ++ e.code false pre.length ++ tail) pre.length (e.code false pre.length) := by
    have := has_self _ (e.code false pre.length ++ tail) pre rfl
    rw [has_append] at this
    simpa using this.1
  rw [List.length_append, TestE.code_length] at hn
  obtain ⟨k, _, k1, k2⟩ := test_passes I hc e (c := m) (r := ⟨m.pos, m.numInstr, m.testResult, m.stack⟩) hs
    (by rw [hm]; exact hh) (by simp only; omega) he
  refine ⟨k, by rw [List.length_append, TestE.code_length]; omega, ?_⟩
  rw [move_self] at k2
  rw [List.length_append, TestE.code_length, ← hm]
  simpa [move, upto] using k2

/-- **C05.** If the outcomes of the atomic tests are given by `v`, the test result is the boolean value of
the expression: `allof` is conjunction, `anyof` is disjunction, `not` is negation. -/
theorem test_value (I : Interp cfg A T E) {v : Atom A T E → Bool} {maxTests : Nat} {e : TestE A T E}
    {pre out tail : List (Op A T E)} {rest rest'}
    (hd : e.depth ≤ maxTests) (hp : parseTest maxTests (e.toks ++ rest) pre = some (rest', out ++ [.jz maxPos]))
    {m : Ctx W V P} {fr st} (hs : m.stack = fr :: st) (hc : fr.script.instrs = (out ++ tail).map I.lower)
    (hm : m.pos = pre.length)
    (hv : ∀ a ∈ e.atoms, ∀ c, ∃ c', exec cfg c (I.atom a) = .cont c' ∧ c'.testResult = v a)
    (hn : m.numInstr + out.length ≤ cfg.cpuLimit + pre.length) :
    ∃ m', Passes cfg m m' ∧ m'.pos = out.length ∧ m'.testResult = e.value v := by
  obtain ⟨c', he⟩ := eval_value I (v := v) e m fun a ha c => by
    obtain ⟨c', h1, h2⟩ := hv a ha c
    exact ⟨c', by simp only [evalAtom, h1, h2]⟩
  obtain ⟨_, k, _, h⟩ := test_runs I hd hp hs hc hm he hn
  exact ⟨_, h, rfl, rfl⟩

/-- De Morgan, for the interpreter's results: `not anyof(l)` has the value of `allof` of the negations. -/
theorem not_any_value (v : Atom A T E → Bool) (l : Tests A T E) :
    (TestE.not (.any l)).value v = (l.values v).all (!·) := by
  simp [TestE.value, List.not_any_eq_all_not, Function.comp_def]

theorem not_all_value (v : Atom A T E → Bool) (l : Tests A T E) :
    (TestE.not (.all l)).value v = (l.values v).any (!·) := by
  simp [TestE.value, List.not_all_eq_any_not, Function.comp_def]

end Sieve.Source
