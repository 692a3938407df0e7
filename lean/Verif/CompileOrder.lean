import Verif.CompileAccept

/-!
# Nothing is lost, doubled or reordered by compiling

Every action, test and expression written in a script is in the code exactly once, at the place it has in the script; and
the code has no others.
-/

namespace Sieve.Compile

variable {A T E : Type}

/-! ## Specification -/

/-- What a script consists of besides its control flow. -/
inductive Content (A T E : Type) where
  | act (a : A)
  | test (t : T)
  /-- `true` or `false` -/
  | lit
  | bad (a : A)
  | expr (e : E)
  | part
  | ret
deriving DecidableEq

/-- What is written in a token. -/
def Tok.atoms : Tok A T E → List (Content A T E)
  | .kwhile e => [.expr e]
  | .kfep _ => [.part]
  | .kret => [.ret]
  | .keval e => [.expr e]
  | .act is => is.map .act
  | .vac t a => [.test t, .act a]
  | .cclose c => c.toList.map .act
  | .ktrue | .kfalse => [.lit]
  | .leaf t => [.test t]
  | .ev e => [.expr e]
  | .bad a => [.bad a]
  | _ => []

/-- What is in an instruction. -/
def Op.atoms : Op A T E → List (Content A T E)
  | .plain a => [.act a]
  | .test t _ => [.test t]
  | .tru | .fls => [.lit]
  | .bad a => [.bad a]
  | .eval e _ => [.expr e]
  | .fep _ => [.part]
  | .loop e _ => [.expr e]
  | .ret => [.ret]
  | _ => []

def written (ts : List (Tok A T E)) : List (Content A T E) := ts.flatMap Tok.atoms

def inCode (ops : List (Op A T E)) : List (Content A T E) := ops.flatMap Op.atoms

/-! ## Lemmas -/

@[simp] theorem written_nil : written ([] : List (Tok A T E)) = [] := rfl

@[simp] theorem written_cons (t : Tok A T E) (ts : List (Tok A T E)) : written (t :: ts) = t.atoms ++ written ts := rfl

@[simp] theorem inCode_append (p q : List (Op A T E)) : inCode (p ++ q) = inCode p ++ inCode q := List.flatMap_append

@[simp] theorem inCode_cons (o : Op A T E) (ops : List (Op A T E)) : inCode (o :: ops) = o.atoms ++ inCode ops := rfl

@[simp] theorem inCode_nil : inCode ([] : List (Op A T E)) = [] := rfl

theorem inCode_plain (is : List A) : inCode (is.map .plain : List (Op A T E)) = is.map .act := by
  induction is with
  | nil => rfl
  | cons a is ih => simp [ih, Op.atoms]

theorem inCode_set : ∀ {ops : List (Op A T E)} {p : Nat} {o o' : Op A T E}, ops[p]? = some o → o'.atoms = o.atoms →
    inCode (ops.set p o') = inCode ops
  | [], _, _, _, h, _ => by simp at h
  | a :: ops, 0, o, o', h, e => by
    simp at h
    subst h
    simp [e]
  | a :: ops, p + 1, o, o', h, e => by
    simp at h
    simp [inCode_set h e]

theorem inCode_foldl (f : List (Op A T E) → Nat → List (Op A T E)) (h : ∀ ops p, inCode (f ops p) = inCode ops) :
    ∀ (ps : List Nat) (ops : List (Op A T E)), inCode (ps.foldl f ops) = inCode ops
  | [], _ => rfl
  | p :: ps, ops => (inCode_foldl f h ps (f ops p)).trans (h ops p)

@[simp] theorem inCode_patchTest (ops : List (Op A T E)) (ps : List Nat) (v : Nat) :
    inCode (patchTest ops ps v) = inCode ops := by
  refine inCode_foldl _ ?_ ps ops
  intro ops p
  unfold setTest
  split
  · rename_i h; exact inCode_set h rfl
  · rename_i h; exact inCode_set h rfl
  · rfl

@[simp] theorem inCode_patchJmp (ops : List (Op A T E)) (ps : List Nat) (v : Nat) :
    inCode (patchJmp ops ps v) = inCode ops := by
  refine inCode_foldl _ ?_ ps ops
  intro ops p
  unfold setJmp
  split
  · rename_i h; exact inCode_set h rfl
  · rfl

@[simp] theorem inCode_patchStart (ops : List (Op A T E)) (t : BType) (p v : Nat) :
    inCode (patchStart ops t p v) = inCode ops := by
  unfold patchStart
  split <;> first | rfl | (rename_i h; exact inCode_set h rfl)

theorem atom_atoms {t : Tok A T E} {n : Bool} {op : Op A T E} {n' : Bool} (h : atom t n = some (op, n')) :
    op.atoms = t.atoms := by
  cases t <;> simp [atom] at h <;> obtain ⟨rfl, -⟩ := h <;> cases n <;> rfl

theorem expectClose_atoms : ∀ (n : Nat) {ts ts' : List (Tok A T E)}, expectClose n ts = some ts' → written ts' = written ts
  | 0, ts, ts', h => by simp [expectClose] at h; rw [h]
  | n + 1, ts, ts', h => by
    cases ts with
    | nil => simp [expectClose] at h
    | cons t ts =>
      cases t <;> simp [expectClose] at h
      rw [expectClose_atoms n h]; rfl

theorem parseLoop_atoms (m : Nat) (ts : List (Tok A T E)) (ops : List (Op A T E)) (b : TBlock) (st : List TBlock)
    (isNot : Bool) : ∀ {ts' ops'}, parseLoop m ts ops b st isNot = some (ts', ops') →
      inCode ops' ++ written ts' = inCode ops ++ written ts := by
  fun_induction parseLoop m ts ops b st isNot with
  | case19 =>
    intro _ _ h
    rename_i h1 _ _ _
    simp only [Option.some.injEq, Prod.mk.injEq] at h
    obtain ⟨rfl, rfl⟩ := h
    have := expectClose_atoms _ h1
    have e := atom_atoms (by assumption)
    simp only [inCode_append, inCode_cons, inCode_nil, written_cons, this, e]
    simp [Op.atoms]
  | case20 =>
    intro _ _ h
    rename_i h1 _ ih _ _
    have := expectClose_atoms _ h1
    rw [ih h]
    simp [this, atom_atoms (by assumption)]
  | case1 => 
    intro ts' ops' h
    simp at h
  | case7 =>
    intro ts' ops' h
    rename_i ops2 _
    simp only [Option.some.injEq, Prod.mk.injEq] at h
    obtain ⟨rfl, rfl⟩ := h
    simp [ops2, Tok.atoms, Op.atoms]
  | case8 =>
    intro ts' ops' h
    rename_i ops2 _ ih
    rw [ih h]
    simp [ops2, Tok.atoms]
  | case2 =>
    intro ts' ops' h
    rename_i ih
    rw [ih h]
    split <;> simp [Tok.atoms, Op.atoms]
  | _ =>
    intro ts' ops' h
    first
    | (simp at h; done)
    | (simp only [Option.some.injEq, Prod.mk.injEq] at h
       obtain ⟨rfl, rfl⟩ := h
       simp [Tok.atoms, Op.atoms]; done)
    | (rename_i ih
       rw [ih h]
       simp [Tok.atoms]; done)
    | (rename_i ih _
       rw [ih h]
       simp [Tok.atoms]; done)

theorem openBlock_ops {lim : Limits} {s s' : State A T E} {new : Block} (h : openBlock lim s new = some s') :
    s'.ops = s.ops := by
  unfold openBlock at h
  split at h
  · cases h
  · split at h
    · injection h with h; subst h; rfl
    · cases h

theorem closeBlock_atoms {s s' : State A T E} {c : Option A} {next : Bool} (h : closeBlock s c next = some s') :
    inCode s'.ops = inCode s.ops ++ c.toList.map .act := by
  unfold closeBlock at h
  split at h
  · simp only at h
    split at h
    all_goals try split at h
    all_goals
      injection h with h
      subst h
    all_goals simp [inCode_plain, Op.atoms]
    all_goals simp [*, inCode_plain, Op.atoms]
  · cases h

theorem round_atoms {lim : Limits} {s s' : State A T E} {t : Tok A T E} {ts ts' : List (Tok A T E)}
    (h : round lim s t ts = some (ts', s')) :
    inCode s'.ops ++ written ts' = inCode s.ops ++ written (t :: ts) := by
  cases t with
  | kif =>
    simp only [round] at h
    split at h
    · rename_i h1
      have h1 := parseLoop_atoms _ _ _ _ _ _ h1
      simp only [Option.map_eq_some_iff, Prod.mk.injEq] at h
      obtain ⟨a, ha, rfl, rfl⟩ := h
      rw [openBlock_ops ha]
      simpa [Tok.atoms] using h1
    · cases h
  | kelsif =>
    simp only [round] at h
    split at h
    · split at h
      · rename_i h1
        have h1 := parseLoop_atoms _ _ _ _ _ _ h1
        simp only [Option.map_eq_some_iff, Prod.mk.injEq] at h
        obtain ⟨a, ha, rfl, rfl⟩ := h
        rw [openBlock_ops ha]
        simpa [Tok.atoms] using h1
      · cases h
    · cases h
  | kelse =>
    simp only [round] at h
    split at h
    · split at h
      · simp only [Option.map_eq_some_iff, Prod.mk.injEq] at h
        obtain ⟨a, ha, rfl, rfl⟩ := h
        rw [openBlock_ops ha]
        simp [Tok.atoms]
      · cases h
    · cases h
  | kwhile e =>
    simp only [round] at h
    split at h
    · simp only [Option.map_eq_some_iff, Prod.mk.injEq] at h
      obtain ⟨a, ha, rfl, rfl⟩ := h
      rw [openBlock_ops ha]
      simp [Tok.atoms, Op.atoms]
    · cases h
  | kfep l =>
    simp only [round] at h
    split at h
    · cases h
    · split at h
      · cases h
      · split at h
        · simp only [Option.map_eq_some_iff, Prod.mk.injEq] at h
          obtain ⟨a, ha, rfl, rfl⟩ := h
          rw [openBlock_ops ha]
          simp [Tok.atoms, Op.atoms]
        · cases h
  | kbreak l =>
    cases l with
    | none =>
      simp only [round] at h
      split at h
      · cases h
      · simp only [Option.some.injEq, Prod.mk.injEq] at h
        obtain ⟨rfl, rfl⟩ := h
        simp [Tok.atoms, Op.atoms]
      · simp only [Option.some.injEq, Prod.mk.injEq] at h
        obtain ⟨rfl, rfl⟩ := h
        simp [Tok.atoms, Op.atoms]
    | some l =>
      simp only [round] at h
      split at h
      · cases h
      · simp only [Option.some.injEq, Prod.mk.injEq] at h
        obtain ⟨rfl, rfl⟩ := h
        simp [Tok.atoms, Op.atoms]
  | kcont =>
    simp only [round] at h
    split at h
    · cases h
    · simp only [Option.some.injEq, Prod.mk.injEq] at h
      obtain ⟨rfl, rfl⟩ := h
      simp [Tok.atoms, Op.atoms]
    · simp only [Option.some.injEq, Prod.mk.injEq] at h
      obtain ⟨rfl, rfl⟩ := h
      simp [Tok.atoms, Op.atoms]
  | kret =>
    simp only [round, Option.some.injEq, Prod.mk.injEq] at h
    obtain ⟨rfl, rfl⟩ := h
    split <;> simp [Tok.atoms, Op.atoms]
  | cclose cl =>
    simp only [round, Option.map_eq_some_iff, Prod.mk.injEq] at h
    obtain ⟨a, ha, rfl, rfl⟩ := h
    rw [closeBlock_atoms ha]
    simp [Tok.atoms]
  | _ =>
    simp only [round, Option.some.injEq, Prod.mk.injEq, reduceCtorEq] at h
    try
      obtain ⟨rfl, rfl⟩ := h
      simp [Tok.atoms, Op.atoms, inCode_plain]

theorem rounds_atoms {lim : Limits} : ∀ (n : Nat) {ts : List (Tok A T E)} {s : State A T E} {ops : List (Op A T E)},
    rounds lim n ts s = some ops → inCode ops = inCode s.ops ++ written ts
  | n, [], s, ops, h => by
    unfold rounds at h
    split at h
    · injection h with h; subst h; simp
    · cases h
  | 0, _ :: _, _, _, h => by cases h
  | n + 1, t :: ts, s, ops, h => by
    unfold rounds at h
    split at h
    · cases h
    · rename_i h1
      rw [rounds_atoms n h, round_atoms h1]

/-! ## C84 -/

/-- C84: the actions, tests and expressions of the code are those written in the script, each once and in the order
written. -/
theorem compile_order {lim : Limits} {ts : List (Tok A T E)} {ops : List (Op A T E)} (h : compile lim ts = some ops) :
    inCode ops = written ts := by
  have := rounds_atoms _ h
  simpa using this

/-- `if anyof(1, not 2) { 10 } else { 11 }` -/
example : (compile ⟨9, 9, 9⟩ ([.kif, .kanyof, .popen, .leaf 1, .comma, .knot, .leaf 2, .pclose, .copen, .act [10], .cclose none,
    .kelse, .copen, .act [11], .cclose (some 12)] : List (Tok Nat Nat Nat))).map inCode =
    some [.test 1, .test 2, .act 10, .act 11, .act 12] := by decide +kernel

end Sieve.Compile
