import Verif.ExprParse

/-!
# Expressions: the parser's stacks

Helper lemmas: whatever the tokens are, there is an argument counter for every function on the operator
stack, and the jump of every operator on the stack has been emitted.
-/

namespace Sieve.Expr

variable {X K : Type}

def Ent.isFunc : Ent → Bool
  | .func _ _ => true
  | _ => false

/-- The number of functions on the stack. -/
def funcs (ops : List Ent) : Nat := ops.countP Ent.isFunc

/-- All jumps on the stack are before position `n`. -/
def Jumps (n : Nat) (ops : List Ent) : Prop := ∀ o j, Ent.bin o (some j) ∈ ops → j < n

theorem funcs_func (id n ops) : funcs (.func id n :: ops) = funcs ops + 1 := by
  simp [funcs, List.countP_cons, Ent.isFunc]

theorem funcs_skip {e : Ent} {ops} (h : e.isFunc = false) : funcs (e :: ops) = funcs ops := by
  simp [funcs, List.countP_cons, h]

theorem Jumps.tail {n e ops} (h : Jumps n (e :: ops)) : Jumps n ops := fun o j hm => h o j (List.mem_cons_of_mem _ hm)

theorem Jumps.mono {n m ops} (h : Jumps n ops) (hn : n ≤ m) : Jumps m ops := fun o j hm => Nat.lt_of_lt_of_le (h o j hm) hn

theorem Jumps.cons {n e ops} (h : Jumps n ops) (he : ∀ o j, e ≠ .bin o (some j)) : Jumps n (e :: ops) := by
  intro o j hm
  rcases List.mem_cons.mp hm with h' | h'
  · exact absurd h'.symm (he o j)
  · exact h o j h'

structure Inv (s : PState X K) : Prop where
  args : s.args.length = funcs s.ops
  jumps : Jumps s.out.length s.ops

theorem update_ok {out : List (Code X K)} {o j ops} (h : Jumps out.length (.bin o j :: ops)) :
    ∃ out', update out j = .ok out' ∧ out'.length = out.length := by
  cases j with
  | none => exact ⟨out, rfl, rfl⟩
  | some j =>
    have hj := h o j (by simp)
    simp only [update]
    rw [List.getElem?_eq_getElem hj]
    cases out[j] <;> exact ⟨_, rfl, by simp⟩

theorem closeLoop_safe (expect : Ent) : ∀ (ops : List Ent) (out : List (Code X K)), Jumps out.length ops →
    expect.isFunc = false →
    closeLoop expect ops out = .err ∨
    ∃ ops' out', closeLoop expect ops out = .ok (ops', out') ∧ funcs ops' = funcs ops ∧ Jumps out'.length ops' := by
  intro ops
  induction ops with
  | nil => intro out _ _; exact .inl rfl
  | cons e ops ih =>
    intro out h he
    unfold closeLoop
    by_cases hx : e = expect
    · rw [if_pos hx]
      refine .inr ⟨_, _, rfl, ?_, h.tail⟩
      rw [funcs, funcs, List.countP_cons, hx, he]; simp
    · rw [if_neg hx]
      cases e with
      | bin o j =>
        obtain ⟨out', h1, h2⟩ := update_ok h
        simp only [h1, Res.bind]
        rcases ih (out' ++ [.bin o]) (h.tail.mono (by simp; omega)) he with h' | ⟨a, b, h3, h4, h5⟩
        · exact .inl h'
        · exact .inr ⟨a, b, h3, by rw [h4]; simp [funcs, Ent.isFunc], h5⟩
      | un o =>
        rcases ih (out ++ [.un o]) (h.tail.mono (by simp)) he with h' | ⟨a, b, h3, h4, h5⟩
        · exact .inl h'
        · exact .inr ⟨a, b, h3, by rw [h4]; simp [funcs, Ent.isFunc], h5⟩
      | _ => exact .inl rfl

theorem binLoop_safe (bop : BinOp) : ∀ (ops : List Ent) (out : List (Code X K)), Jumps out.length ops →
    ∃ ops' out', binLoop bop ops out = .ok (ops', out') ∧ funcs ops' = funcs ops ∧ Jumps out'.length ops' := by
  intro ops
  induction ops with
  | nil => intro out h; exact ⟨_, _, rfl, rfl, h⟩
  | cons e ops ih =>
    intro out h
    unfold binLoop
    cases e with
    | bin o j =>
      simp only
      by_cases hp : bop.prec ≤ o.prec
      · rw [if_pos hp]
        obtain ⟨out', h1, h2⟩ := update_ok h
        simp only [h1, Res.bind]
        obtain ⟨a, b, h3, h4, h5⟩ := ih (out' ++ [.bin o]) (h.tail.mono (by simp; omega))
        exact ⟨a, b, h3, by rw [h4]; simp [funcs, Ent.isFunc], h5⟩
      · rw [if_neg hp]; exact ⟨_, _, rfl, rfl, h⟩
    | un o =>
      obtain ⟨a, b, h3, h4, h5⟩ := ih (out ++ [.un o]) (h.tail.mono (by simp))
      exact ⟨a, b, h3, by rw [h4]; simp [funcs, Ent.isFunc], h5⟩
    | _ => exact ⟨_, _, rfl, rfl, h⟩

theorem commaLoop_safe : ∀ (ops : List Ent) (out : List (Code X K)), Jumps out.length ops →
    ∃ ops' out', commaLoop ops out = .ok (ops', out') ∧ funcs ops' = funcs ops ∧ Jumps out'.length ops' := by
  intro ops
  induction ops with
  | nil => intro out h; exact ⟨_, _, rfl, rfl, h⟩
  | cons e ops ih =>
    intro out h
    unfold commaLoop
    cases e with
    | bin o j =>
      obtain ⟨out', h1, h2⟩ := update_ok h
      simp only [h1, Res.bind]
      obtain ⟨a, b, h3, h4, h5⟩ := ih (out' ++ [.bin o]) (h.tail.mono (by simp; omega))
      exact ⟨a, b, h3, by rw [h4]; simp [funcs, Ent.isFunc], h5⟩
    | un o =>
      obtain ⟨a, b, h3, h4, h5⟩ := ih (out ++ [.un o]) (h.tail.mono (by simp))
      exact ⟨a, b, h3, by rw [h4]; simp [funcs, Ent.isFunc], h5⟩
    | _ => exact ⟨_, _, rfl, rfl, h⟩

theorem finishLoop_safe : ∀ (ops : List Ent) (out : List (Code X K)), Jumps out.length ops →
    finishLoop ops out ≠ .panic := by
  intro ops
  induction ops with
  | nil => intro out _ h; cases h
  | cons e ops ih =>
    intro out h
    unfold finishLoop
    cases e with
    | bin o j =>
      obtain ⟨out', h1, h2⟩ := update_ok h
      simp only [h1, Res.bind]
      exact ih _ (h.tail.mono (by simp; omega))
    | un o => exact ih _ (h.tail.mono (by simp))
    | _ => intro h; cases h

theorem incBuild_inv {n} : ∀ {ops : List Ent}, Jumps n ops → funcs (incBuild ops) = funcs ops ∧ Jumps n (incBuild ops) := by
  intro ops h
  unfold incBuild
  split
  · rename_i a id k r
    split
    · refine ⟨by simp [funcs, List.countP_cons, Ent.isFunc], ?_⟩
      intro o j hm
      simp only [List.mem_cons] at hm
      rcases hm with hm | hm | hm
      · exact h o j (by simp [hm])
      · cases hm
      · exact h o j (by simp [hm])
    · exact ⟨rfl, h⟩
  · split
    · refine ⟨by simp [funcs, Ent.isFunc], ?_⟩
      intro o j hm
      simp at hm
    · exact ⟨rfl, h⟩
  · exact ⟨rfl, h⟩

theorem Inv.inc {s : PState X K} (h : Inv s) : Inv (inc s) ∧ (Expr.inc s).out = s.out := by
  unfold Expr.inc
  split
  · exact ⟨h, rfl⟩
  · rename_i x xs hx
    obtain ⟨h1, h2⟩ := incBuild_inv h.jumps
    refine ⟨⟨?_, h2⟩, rfl⟩
    have := h.args
    rw [hx] at this
    simp only [List.length_cons] at this ⊢
    rw [h1]; exact this

theorem Inv.dec {s : PState X K} (h : Inv s) : Inv (dec s) ∧ (Expr.dec s).out = s.out := by
  unfold Expr.dec
  split
  · exact ⟨h, rfl⟩
  · rename_i x xs hx
    refine ⟨⟨?_, h.jumps⟩, rfl⟩
    have := h.args
    rw [hx] at this
    simpa using this

theorem endCall_safe {s : PState X K} (h : Inv s) : endCall s = .err ∨ ∃ s', endCall s = .ok s' ∧ Inv s' := by
  unfold endCall
  have hargs := h.args
  have hj := h.jumps
  split
  · rename_i id n ops' ho
    rw [ho, funcs_func] at hargs
    rw [ho] at hj
    split
    · rename_i ha
      rw [ha] at hargs
      simp at hargs
    · rename_i got args ha
      rw [ha] at hargs
      split
      · exact .inl rfl
      · exact .inr ⟨_, rfl, by simpa using hargs, hj.tail.mono (by simp)⟩
  · exact .inr ⟨_, rfl, h⟩

theorem close_safe {s : PState X K} (h : Inv s) {expect : Ent} (he : expect.isFunc = false) :
    close s expect = .err ∨ ∃ s', close s expect = .ok s' ∧ Inv s' := by
  unfold close
  rcases closeLoop_safe expect s.ops s.out h.jumps he with h' | ⟨ops, out, h1, h2, h3⟩
  · rw [h']; exact .inl rfl
  · rw [h1]
    simp only [Res.bind]
    rcases endCall_safe (s := { s with ops := ops, out := out }) ⟨by simpa [h2] using h.args, h3⟩ with h' | ⟨s', h4, h5⟩
    · rw [h']; exact .inl rfl
    · rw [h4]; exact .inr ⟨_, rfl, h5.args, h5.jumps⟩

theorem pstep_safe {s : PState X K} (h : Inv s) (t : Tok X K) : pstep s t = .err ∨ ∃ s', pstep s t = .ok s' ∧ Inv s' := by
  cases t with
  | var x =>
    obtain ⟨h1, h2⟩ := h.inc
    exact .inr ⟨_, rfl, h1.args, h1.jumps.mono (by simp)⟩
  | lit k =>
    obtain ⟨h1, h2⟩ := h.inc
    exact .inr ⟨_, rfl, h1.args, h1.jumps.mono (by simp)⟩
  | un o => exact .inr ⟨_, rfl, by rw [funcs_skip rfl]; exact h.args, h.jumps.cons (by simp)⟩
  | popen => exact .inr ⟨_, rfl, by rw [funcs_skip rfl]; exact h.args, h.jumps.cons (by simp)⟩
  | pclose => exact close_safe h rfl
  | bclose => exact close_safe h rfl
  | bin o =>
    obtain ⟨h1, h2⟩ := h.dec
    obtain ⟨ops, out, h3, h4, h5⟩ := binLoop_safe o (Expr.dec s).ops (Expr.dec s).out h1.jumps
    simp only [pstep, h3, Res.bind]
    cases jumpOf o with
    | none =>
      refine .inr ⟨_, rfl, ?_, h5.cons (by simp)⟩
      rw [funcs_skip rfl, h4]; exact h1.args
    | some v =>
      refine .inr ⟨_, rfl, ?_, ?_⟩
      · rw [funcs_skip rfl, h4]; exact h1.args
      · intro o' j hm
        rcases List.mem_cons.mp hm with h' | h'
        · cases h'; simp
        · have := h5 o' j h'
          simp; omega
  | func id n =>
    obtain ⟨h1, h2⟩ := h.inc
    refine .inr ⟨_, rfl, ?_, h1.jumps.cons (by simp)⟩
    rw [funcs_func, ← h1.args]; rfl
  | bopen =>
    simp only [pstep]
    split
    · refine .inr ⟨_, rfl, ?_, (h.jumps.cons (by simp)).cons (by simp)⟩
      rw [funcs_skip rfl, funcs_func, ← h.args]; rfl
    · obtain ⟨h1, h2⟩ := h.inc
      refine .inr ⟨_, rfl, ?_, (h1.jumps.cons (by simp)).cons (by simp)⟩
      rw [funcs_skip rfl, funcs_func, ← h1.args]; rfl
  | comma =>
    obtain ⟨ops, out, h3, h4, h5⟩ := commaLoop_safe s.ops s.out h.jumps
    simp only [pstep, h3, Res.bind]
    exact .inr ⟨_, rfl, by simpa [h4] using h.args, h5⟩

theorem psteps_safe (ts : List (Tok X K)) : ∀ {s : PState X K}, Inv s →
    psteps s ts = .err ∨ ∃ s', psteps s ts = .ok s' ∧ Inv s' := by
  induction ts with
  | nil => intro s h; exact .inr ⟨s, rfl, h⟩
  | cons t ts ih =>
    intro s h
    rcases pstep_safe h t with h' | ⟨s', h1, h2⟩
    · simp [psteps, h', Res.bind]
    · simp only [psteps, h1, Res.bind]
      exact ih h2

theorem parse_safe (ts : List (Tok X K)) : parse ts ≠ .panic := by
  unfold parse
  rcases psteps_safe ts (s := ⟨[], [], [], false⟩) ⟨rfl, by intro o j h; simp at h⟩ with h | ⟨s, h1, h2⟩
  · rw [h]; intro h; cases h
  · rw [h1]; exact finishLoop_safe _ _ h2.jumps

end Sieve.Expr
