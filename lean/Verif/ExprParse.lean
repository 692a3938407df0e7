import Verif.ExprSpec

/-!
# The parser emits the postfix code of the expression tree
-/

namespace Sieve.Expr

variable {X K V : Type}

/-- What follows the first operand of a binary operator. -/
def binCode (o : BinOp) (b : List (Code X K)) : List (Code X K) :=
  match jumpOf o with
  | some v => .jmpIf v (b.length + 1) :: (b ++ [.bin o])
  | none => b ++ [.bin o]

mutual
/-- Postfix code. -/
def Ex.code : Ex X K → List (Code X K)
  | .var x => [.var x]
  | .lit k => [.lit k]
  | .un o e => e.code ++ [.un o]
  | .bin o a b => a.code ++ binCode o b.code
  | .call id es => es.code ++ [.func id es.length]
  | .index a i => a.code ++ i.code ++ [.access]
  | .build es => es.code ++ [.build es.length]
def Exs.code : Exs X K → List (Code X K)
  | .nil => []
  | .cons e es => e.code ++ es.code
end

theorem atLevel_prec {o : BinOp} {p} (h : AtLevel o p) : o.prec = p := by
  obtain ⟨q, ops, rfl, h1, h2⟩ := h
  unfold table at h1
  rcases q with _ | _ | _ | _ | _ | _ | _ | q <;> simp at h1 <;> subst h1 <;> simp at h2
  all_goals (try (rcases h2 with rfl | rfl | rfl | rfl <;> rfl))
  all_goals (try (rcases h2 with rfl | rfl <;> rfl))
  all_goals (subst h2; rfl)

theorem prec_pos (o : BinOp) : 0 < o.prec ∧ o.prec ≤ 7 := by cases o <;> decide

theorem prec_atLevel (o : BinOp) : AtLevel o o.prec := by
  cases o
  case or => exact ⟨0, _, rfl, rfl, by simp⟩
  case and => exact ⟨1, _, rfl, rfl, by simp⟩
  case xor => exact ⟨2, _, rfl, rfl, by simp⟩
  case eq => exact ⟨3, _, rfl, rfl, by simp⟩
  case ne => exact ⟨3, _, rfl, rfl, by simp⟩
  case lt => exact ⟨4, _, rfl, rfl, by simp⟩
  case le => exact ⟨4, _, rfl, rfl, by simp⟩
  case gt => exact ⟨4, _, rfl, rfl, by simp⟩
  case ge => exact ⟨4, _, rfl, rfl, by simp⟩
  case add => exact ⟨5, _, rfl, rfl, by simp⟩
  case sub => exact ⟨5, _, rfl, rfl, by simp⟩
  case mul => exact ⟨6, _, rfl, rfl, by simp⟩
  case div => exact ⟨6, _, rfl, rfl, by simp⟩

/-! ## Pending operators -/

/-- Operators that wait for their last operand, all binding at least as tightly as level `p`. -/
def Pend (p : Nat) (l : List Ent) : Prop := ∀ x ∈ l, (∃ o, x = .un o) ∨ ∃ o j, x = .bin o j ∧ p ≤ o.prec

theorem Pend.mono {p q l} (h : Pend q l) (hpq : p ≤ q) : Pend p l := by
  intro x hx
  rcases h x hx with h | ⟨o, j, h1, h2⟩
  · exact .inl h
  · exact .inr ⟨o, j, h1, by omega⟩

/-- Moving pending operators to the output. -/
abbrev flush : List Ent → List (Code X K) → Res (List (Code X K)) := finishLoop

/-- The entry on top is not popped by an operator of level `p` or tighter. -/
def Safe (p : Nat) : List Ent → Prop
  | .bin o _ :: _ => o.prec < p
  | .un _ :: _ => 8 ≤ p
  | _ => True

def NoFunc : List Ent → Prop
  | .func _ _ :: _ => False
  | _ => True

theorem Safe.up {p ops} (h : Safe p ops) : Safe (p + 1) ops := by
  cases ops with
  | nil => trivial
  | cons x l => cases x <;> simp_all [Safe] <;> omega

theorem flush_append {a b : List Ent} {out out' : List (Code X K)} (h : flush a out = .ok out') :
    flush (a ++ b) out = flush b out' := by
  induction a generalizing out with
  | nil => simp only [flush, finishLoop, Res.ok.injEq] at h; subst h; rfl
  | cons x a ih =>
    cases x with
    | un o => simp only [flush, List.cons_append, finishLoop] at h ⊢; exact ih h
    | bin o j =>
      simp only [flush, List.cons_append, finishLoop] at h ⊢
      cases hu : update out j with
      | ok out1 => rw [hu] at h; simp only [Res.bind] at h ⊢; exact ih h
      | err => rw [hu] at h; simp [Res.bind] at h
      | panic => rw [hu] at h; simp [Res.bind] at h
    | _ => simp [flush, finishLoop] at h

theorem closeLoop_pend {e : Ent} (he : e = .popen ∨ e = .bopen) {p pend ops} {out out' : List (Code X K)} (hp : Pend p pend)
    (h : flush pend out = .ok out') : closeLoop e (pend ++ e :: ops) out = .ok (ops, out') := by
  induction pend generalizing out with
  | nil =>
    simp only [flush, finishLoop, Res.ok.injEq] at h
    subst h
    simp [closeLoop]
  | cons x pend ih =>
    have hp' : Pend p pend := fun y hy => hp y (by simp [hy])
    rcases hp x (by simp) with ⟨o, rfl⟩ | ⟨o, j, rfl, _⟩
    · simp only [flush, finishLoop] at h
      rw [List.cons_append, closeLoop, if_neg (by rcases he with rfl | rfl <;> simp)]
      exact ih hp' h
    · simp only [flush, finishLoop] at h
      rw [List.cons_append, closeLoop, if_neg (by rcases he with rfl | rfl <;> simp)]
      cases hu : update out j with
      | ok out1 => rw [hu] at h; simp only [Res.bind] at h ⊢; exact ih hp' h
      | err => rw [hu] at h; simp [Res.bind] at h
      | panic => rw [hu] at h; simp [Res.bind] at h

theorem commaLoop_pend {p pend ops} {e : Ent} (he : e = .popen ∨ e = .bopen) {out out' : List (Code X K)} (hp : Pend p pend)
    (h : flush pend out = .ok out') : commaLoop (pend ++ e :: ops) out = .ok (e :: ops, out') := by
  induction pend generalizing out with
  | nil =>
    simp only [flush, finishLoop, Res.ok.injEq] at h
    subst h
    rcases he with rfl | rfl <;> rfl
  | cons x pend ih =>
    have hp' : Pend p pend := fun y hy => hp y (by simp [hy])
    rcases hp x (by simp) with ⟨o, rfl⟩ | ⟨o, j, rfl, _⟩
    · simp only [flush, finishLoop] at h
      rw [List.cons_append, commaLoop]
      exact ih hp' h
    · simp only [flush, finishLoop] at h
      rw [List.cons_append, commaLoop]
      cases hu : update out j with
      | ok out1 => rw [hu] at h; simp only [Res.bind] at h ⊢; exact ih hp' h
      | err => rw [hu] at h; simp [Res.bind] at h
      | panic => rw [hu] at h; simp [Res.bind] at h

theorem binLoop_pend {o : BinOp} {pend ops} {out out' : List (Code X K)} (hp : Pend o.prec pend) (hs : Safe o.prec ops)
    (h : flush pend out = .ok out') : binLoop o (pend ++ ops) out = .ok (ops, out') := by
  induction pend generalizing out with
  | nil =>
    simp only [flush, finishLoop, Res.ok.injEq] at h
    subst h
    rw [List.nil_append]
    unfold binLoop
    split
    · simp only [Safe] at hs
      rw [if_neg (by omega)]
    · simp only [Safe] at hs
      have := prec_pos o
      omega
    · rfl
  | cons x pend ih =>
    have hp' : Pend o.prec pend := fun y hy => hp y (by simp [hy])
    rcases hp x (by simp) with ⟨o', rfl⟩ | ⟨o', j, rfl, hle⟩
    · simp only [flush, finishLoop] at h
      rw [List.cons_append, binLoop]
      exact ih hp' h
    · simp only [flush, finishLoop] at h
      rw [List.cons_append, binLoop, if_pos hle]
      cases hu : update out j with
      | ok out1 => rw [hu] at h; simp only [Res.bind] at h ⊢; exact ih hp' h
      | err => rw [hu] at h; simp [Res.bind] at h
      | panic => rw [hu] at h; simp [Res.bind] at h

/-! ## Counting arguments -/

def incArgs : List Int → List Int
  | [] => []
  | x :: xs => (x + 1) :: xs

/-- The operators after an expression: those before, with an item counted if it is one. -/
def after (d : Bool) (args : List Int) (ops : List Ent) : List Ent :=
  if d = true ∧ args ≠ [] then incBuild ops else ops

theorem incBuild_plain {x : Ent} {ops} (hx : NoFunc [x]) (h : NoFunc ops) : incBuild (x :: ops) = x :: ops := by
  cases ops with
  | nil => cases x <;> simp_all [incBuild, NoFunc]
  | cons y l => cases y <;> simp_all [incBuild, NoFunc]

theorem after_plain {x : Ent} {ops d args} (hx : NoFunc [x]) (h : NoFunc ops) : after d args (x :: ops) = x :: ops := by
  unfold after
  split
  · exact incBuild_plain hx h
  · rfl

theorem incBuild_noFunc {ops} (h : NoFunc ops) : NoFunc (incBuild ops) := by
  unfold incBuild
  split
  · split
    · rename_i a _ _ _ _; cases a <;> simp_all [NoFunc]
    · exact h
  · exact absurd h (by simp [NoFunc])
  · exact h

theorem incBuild_safe {ops p} (h : Safe p ops) : Safe p (incBuild ops) := by
  unfold incBuild
  split
  · split
    · rename_i a _ _ _ _; cases a <;> simp_all [Safe]
    · exact h
  · split <;> trivial
  · exact h

theorem after_noFunc {d args ops} (h : NoFunc ops) : NoFunc (after d args ops) := by
  unfold after; split
  · exact incBuild_noFunc h
  · exact h

theorem after_safe {d args ops p} (h : Safe p ops) : Safe p (after d args ops) := by
  unfold after; split
  · exact incBuild_safe h
  · exact h

theorem inc_eq (s : PState X K) : inc s = { s with args := incArgs s.args, ops := after true s.args s.ops } := by
  obtain ⟨o, ops, args, l⟩ := s
  cases args <;> simp [inc, after, incArgs]

theorem psteps_append (s : PState X K) (a b) : psteps s (a ++ b) = (psteps s a).bind fun s => psteps s b := by
  induction a generalizing s with
  | nil => rfl
  | cons t a ih =>
    rw [List.cons_append, psteps, psteps]
    cases pstep s t with
    | ok s' => simp only [Res.bind]; exact ih s'
    | err => rfl
    | panic => rfl

/-! ## The main induction -/

/-- What processing an expression does. -/
structure Parsed (p : Nat) (ts : List (Tok X K)) (e : Ex X K) (s : PState X K) (s' : PState X K) (pd : List Ent) : Prop where
  run : psteps s ts = .ok s'
  ops : s'.ops = pd ++ after (direct ts) s.args s.ops
  args : s'.args = incArgs s.args
  pend : Pend p pd
  flushed : flush pd s'.out = .ok (s.out ++ e.code)
  done : 9 ≤ p → pd = []
  last : 10 ≤ p → s'.last = true

theorem update_jump {a b : List (Code X K)} {v} : update (a ++ .jmpIf v 0 :: b) (some a.length) =
    .ok (a ++ .jmpIf v (b.length + 1) :: b) := by
  simp [update]

theorem endCall_noFunc {s : PState X K} (h : NoFunc s.ops) : endCall s = .ok s := by
  unfold endCall
  split
  · rename_i h'; rw [h'] at h; exact absurd h id
  · rfl

theorem close_plain {p pend ops} {e : Ent} (he : e = .popen ∨ e = .bopen) {s : PState X K} {out} (hp : Pend p pend)
    (h : flush pend s.out = .ok out) (ho : s.ops = pend ++ e :: ops) (hf : NoFunc ops) :
    close s e = .ok { s with ops := ops, out := out, last := true } := by
  unfold close
  rw [ho, closeLoop_pend he hp h]
  simp only [Res.bind]
  rw [endCall_noFunc hf]

theorem close_func {p pend ops id n args} {e : Ent} (he : e = .popen ∨ e = .bopen) {s : PState X K} {out} (hp : Pend p pend)
    (h : flush pend s.out = .ok out) (ho : s.ops = pend ++ e :: .func id n :: ops) (ha : s.args = (n : Int) :: args) :
    close s e = .ok ⟨out ++ [if id = idAccess then .access else if id = idBuild then .build n else .func id n], ops, args, true⟩ := by
  unfold close
  rw [ho, closeLoop_pend he hp h]
  simp only [Res.bind, endCall, ha, ne_eq, not_true_eq_false, if_false]

/-- Processing a list of items. -/
structure ParsedArgs (id n : Nat) (ts : List (Tok X K)) (es : Exs X K) (k : Int) (e : Ent) (ops : List Ent) (args : List Int)
    (s s' : PState X K) (pd : List Ent) : Prop where
  run : psteps s ts = .ok s'
  ops : s'.ops = pd ++ e :: .func id (if id = idBuild then n + es.length else n) :: ops
  args : s'.args = (k + es.length) :: args
  pend : Pend 1 pd
  flushed : flush pd s'.out = .ok (s.out ++ es.code)

theorem incBuild_func (e : Ent) (id n ops) : incBuild (e :: .func id n :: ops) =
    e :: .func id (if id = idBuild then n + 1 else n) :: ops := by
  simp only [incBuild]
  split <;> rfl

theorem after_item {d : Bool} {ts : List (Tok X K)} {id n k e ops args} (hd : d = true → direct ts = true) (h : id = idBuild → d = true) :
    after (direct ts) (k :: args) (e :: .func id n :: ops) = e :: .func id (if id = idBuild then n + 1 else n) :: ops := by
  unfold after
  by_cases hi : id = idBuild
  · rw [hd (h hi), if_pos ⟨rfl, by simp⟩, incBuild_func]
  · rw [if_neg hi]
    split
    · rw [incBuild_func, if_neg hi]
    · rfl

theorem g_ne_nil {p : Nat} {ts : List (Tok X K)} {e : Ex X K} {st} (h : G st p ts e) : ts ≠ [] := by
  have : ∀ n p, 10 - p ≤ n → G st p ts e → ts ≠ [] := by
    intro n
    induction n with
    | zero =>
      intro p hp h
      cases h with
      | up _ _ h => omega
      | _ => simp
    | succ n ih =>
      intro p hp h
      cases h with
      | up _ _ h => exact ih (p + 1) (by omega) h
      | _ => simp
  exact this _ p (Nat.le_refl _) h

theorem g_parsed {p : Nat} {ts : List (Tok X K)} {e : Ex X K} (h : G true p ts e) : ∀ (s : PState X K), NoFunc s.ops →
    Safe p s.ops → s.last = false → ∃ s' pend, Parsed p ts e s s' pend := by
  refine G.rec (motive_1 := fun p ts e _ => ∀ (s : PState X K), NoFunc s.ops → Safe p s.ops → s.last = false →
      ∃ s' pend, Parsed p ts e s s' pend)
    (motive_2 := fun d ts es _ => ∀ {k : Int} {args : List Int} {e : Ent}
      {id n : Nat} {ops : List Ent} (s : PState X K), e = .popen ∨ e = .bopen → (id = idBuild → d = true) →
      s.ops = e :: .func id n :: ops → s.args = k :: args → s.last = false →
      ∃ s' pend, ParsedArgs id n ts es k e ops args s s' pend)
    ?_ ?_ ?_ ?_ ?_ ?_ ?_ ?_ ?_ ?_ ?_ ?_ h
  · -- variable
    intro x s hf hs hl
    refine ⟨_, [], ⟨rfl, ?_, ?_, ?_, ?_, fun _ => rfl, fun _ => rfl⟩⟩ <;> simp [inc_eq, direct, Pend, flush, finishLoop, Ex.code]
  · -- parentheses
    intro ts e h ih s hf hs hl
    obtain ⟨s', pend, h'⟩ := ih { s with ops := .popen :: s.ops, last := false } trivial trivial rfl
    have ho := h'.ops
    rw [after_plain (by trivial) hf] at ho
    refine ⟨{ s' with ops := s.ops, out := s.out ++ e.code, last := true }, [], ?_, ?_, h'.args, ?_, ?_, fun _ => rfl, fun _ => rfl⟩
    · rw [psteps]
      simp only [pstep, Res.bind]
      rw [psteps_append, h'.run]
      simp only [Res.bind, psteps, pstep]
      rw [close_plain (.inl rfl) h'.pend h'.flushed ho hf]
    · simp [direct, after]
    · simp [Pend]
    · rfl
  · -- function
    intro id n ts es h1 h2 ha hn ih s hf hs hl
    obtain ⟨s', pend, h'⟩ := ih (k := 0) (args := incArgs s.args) (e := .popen) (id := id) (n := n)
      (ops := after true s.args s.ops) ⟨s.out, .popen :: .func id n :: after true s.args s.ops, 0 :: incArgs s.args, false⟩
      (.inl rfl) (fun h => absurd h h2) rfl rfl rfl
    have ho := h'.ops
    rw [if_neg h2] at ho
    have ha' := h'.args
    rw [Int.zero_add, hn] at ha'
    refine ⟨⟨s.out ++ es.code ++ [.func id n], after true s.args s.ops, incArgs s.args, true⟩, [], ?_, ?_, rfl, ?_, ?_,
      fun _ => rfl, fun _ => rfl⟩
    · rw [psteps]
      simp only [pstep, Res.bind, inc_eq]
      rw [psteps]
      simp only [pstep, Res.bind]
      rw [psteps_append, h'.run]
      simp only [Res.bind, psteps, pstep]
      rw [close_func (.inl rfl) h'.pend h'.flushed ho ha', if_neg h1, if_neg h2]
    · simp [direct]
    · simp [Pend]
    · simp [flush, finishLoop, Ex.code, hn]
  · -- array access
    intro ts a us i h1 h2 ih1 ih2 s hf hs hl
    obtain ⟨s1, pend1, g1⟩ := ih1 s hf hs hl
    have := g1.done (by omega)
    subst this
    obtain ⟨s2, pend2, g2⟩ := ih2
      { s1 with args := 1 :: s1.args, ops := .bopen :: .func idAccess 2 :: s1.ops, last := false } trivial trivial rfl
    have ho := g2.ops
    rw [after_item (d := false) (by simp) (by decide), if_neg (by decide)] at ho
    have ha : s2.args = ((2 : Nat) : Int) :: s1.args := g2.args
    have hfl := g1.flushed
    simp only [flush, finishLoop, Res.ok.injEq] at hfl
    refine ⟨⟨s1.out ++ i.code ++ [.access], s1.ops, s1.args, true⟩, [], ?_, ?_, g1.args, ?_, ?_, fun _ => rfl, fun _ => rfl⟩
    · rw [psteps_append, g1.run]
      simp only [Res.bind, psteps, pstep, g1.last (by omega), if_true]
      rw [psteps_append, g2.run]
      simp only [Res.bind, psteps, pstep]
      rw [close_func (.inr rfl) g2.pend g2.flushed ho ha, if_pos rfl]
    · rw [g1.ops]
      congr 2
      cases ts with
      | nil => exact absurd rfl (g_ne_nil h1)
      | cons t ts => cases t <;> rfl
    · simp [Pend]
    · simp [flush, finishLoop, Ex.code, hfl]
  · -- array
    intro ts es ha ih s hf hs hl
    obtain ⟨s', pend, h'⟩ := ih (k := 0) (args := incArgs s.args) (e := .bopen) (id := idBuild) (n := 0)
      (ops := after true s.args s.ops) ⟨s.out, .bopen :: .func idBuild 0 :: after true s.args s.ops, 0 :: incArgs s.args, false⟩
      (.inr rfl) (fun _ => rfl) rfl rfl rfl
    have ho := h'.ops
    rw [if_pos rfl, Nat.zero_add] at ho
    have ha' := h'.args
    rw [Int.zero_add] at ha'
    refine ⟨⟨s.out ++ es.code ++ [.build es.length], after true s.args s.ops, incArgs s.args, true⟩, [], ?_, ?_, rfl, ?_, ?_,
      fun _ => rfl, fun _ => rfl⟩
    · rw [psteps]
      simp only [pstep, hl, Bool.false_eq_true, if_false, Res.bind, inc_eq]
      rw [psteps_append, h'.run]
      simp only [Res.bind, psteps, pstep]
      rw [close_func (.inr rfl) h'.pend h'.flushed ho ha', if_neg (by decide), if_pos rfl]
    · simp [direct]
    · simp [Pend]
    · simp [flush, finishLoop, Ex.code]
  · -- constant
    intro k s hf hs hl
    refine ⟨_, [], ⟨rfl, ?_, ?_, ?_, ?_, fun _ => rfl, by omega⟩⟩ <;> simp [inc_eq, direct, Pend, flush, finishLoop, Ex.code]
  · -- unary operator
    intro o ts e h ih s hf hs hl
    obtain ⟨s', pend, h'⟩ := ih { s with ops := .un o :: s.ops, last := false } trivial (Nat.le_refl 8) rfl
    refine ⟨s', pend ++ [.un o], ?_, ?_, h'.args, ?_, ?_, by omega, by omega⟩
    · exact h'.run
    · rw [h'.ops, after_plain (by trivial) hf]
      simp [direct, after]
    · intro x hx
      rcases List.mem_append.mp hx with hx | hx
      · exact h'.pend x hx
      · simp only [List.mem_singleton] at hx
        exact .inl ⟨o, hx⟩
    · rw [flush_append h'.flushed]
      simp [flush, finishLoop, Ex.code]
  · -- binary operator
    intro o p l r a b ho ha hb ih1 ih2 s hf hs hl
    have hop := atLevel_prec ho
    subst hop
    obtain ⟨s1, pend1, g1⟩ := ih1 s hf hs hl
    have hf1 : NoFunc (after (direct l) s.args s.ops) := after_noFunc hf
    have hbl := binLoop_pend g1.pend (after_safe (d := direct l) (args := s.args) hs) g1.flushed
    rw [← g1.ops] at hbl
    have hdir : direct (l ++ .bin o :: r) = direct l := by
      cases l with
      | nil => exact absurd rfl (g_ne_nil ha)
      | cons t l => cases t <;> rfl
    have hdec : dec s1 = { s1 with args := s.args } := by
      unfold dec
      rw [g1.args]
      obtain ⟨_, _, _ | ⟨x, xs⟩, _⟩ := s
      · simp only [incArgs]
        have := g1.args
        simp only [incArgs] at this
        rw [← this]
      · simp [incArgs]
    cases hj : jumpOf o with
    | none =>
      obtain ⟨s2, pend2, g2⟩ := ih2
        ⟨s.out ++ a.code, .bin o none :: after (direct l) s.args s.ops, s.args, false⟩ trivial (Nat.lt_succ_self _) rfl
      refine ⟨s2, pend2 ++ [.bin o none], ?_, ?_, g2.args, ?_, ?_, ?_, ?_⟩
      · rw [psteps_append, g1.run]
        simp only [Res.bind, psteps, pstep, hdec, hbl, hj]
        exact g2.run
      · rw [g2.ops, after_plain (by trivial) hf1, hdir]
        simp
      · intro x hx
        rcases List.mem_append.mp hx with hx | hx
        · exact g2.pend.mono (by omega) x hx
        · simp only [List.mem_singleton] at hx
          exact .inr ⟨o, none, hx, Nat.le_refl _⟩
      · rw [flush_append g2.flushed]
        simp [flush, finishLoop, update, Res.bind, Ex.code, binCode, hj]
      · have := prec_pos o; omega
      · have := prec_pos o; omega
    | some v =>
      obtain ⟨s2, pend2, g2⟩ := ih2
        ⟨s.out ++ a.code ++ [.jmpIf v 0], .bin o (some (s.out ++ a.code).length) :: after (direct l) s.args s.ops, s.args, false⟩
        trivial (Nat.lt_succ_self _) rfl
      refine ⟨s2, pend2 ++ [.bin o (some (s.out ++ a.code).length)], ?_, ?_, g2.args, ?_, ?_, ?_, ?_⟩
      · rw [psteps_append, g1.run]
        simp only [Res.bind, psteps, pstep, hdec, hbl, hj]
        exact g2.run
      · rw [g2.ops, after_plain (by trivial) hf1, hdir]
        simp
      · intro x hx
        rcases List.mem_append.mp hx with hx | hx
        · exact g2.pend.mono (by omega) x hx
        · simp only [List.mem_singleton] at hx
          exact .inr ⟨o, _, hx, Nat.le_refl _⟩
      · rw [flush_append g2.flushed]
        simp only [flush, finishLoop]
        rw [show s.out ++ a.code ++ [Code.jmpIf v 0] ++ b.code = (s.out ++ a.code) ++ .jmpIf v 0 :: b.code by simp, update_jump]
        simp [Res.bind, Ex.code, binCode, hj]
      · have := prec_pos o; omega
      · have := prec_pos o; omega
  · -- next level
    intro p ts e h0 h10 h ih s hf hs hl
    obtain ⟨s', pend, h'⟩ := ih s hf hs.up hl
    exact ⟨s', pend, h'.run, h'.ops, h'.args, h'.pend.mono (by omega), h'.flushed, fun h => h'.done (by omega), fun h => h'.last (by omega)⟩
  · -- no item
    intro d k args e id n ops s he hd ho ha hl
    refine ⟨s, [], rfl, ?_, ?_, ?_, ?_⟩
    · rw [ho]; simp [Exs.length]
    · rw [ha]; simp [Exs.length]
    · simp [Pend]
    · simp [flush, finishLoop, Exs.code]
  · -- one item
    intro d ts e1 h1 h2 ih1 k args e id n ops s he hd ho ha hl
    obtain ⟨s', pend, g⟩ := ih1 s (by rw [ho]; rcases he with rfl | rfl <;> trivial)
      (by rw [ho]; rcases he with rfl | rfl <;> trivial) hl
    refine ⟨s', pend, g.run, ?_, ?_, g.pend, ?_⟩
    · rw [g.ops, ha, ho, after_item h2 hd]; rfl
    · rw [g.args, ha]; rfl
    · rw [g.flushed]; simp [Exs.code]
  · -- more items
    intro d ts e1 us e' es h1 h2 h3 ih1 ih3 k args e id n ops s he hd ho ha hl
    obtain ⟨s1, pend, g⟩ := ih1 s (by rw [ho]; rcases he with rfl | rfl <;> trivial)
      (by rw [ho]; rcases he with rfl | rfl <;> trivial) hl
    have ho1 := g.ops
    rw [ha, ho, after_item h2 hd] at ho1
    have ha1 := g.args
    rw [ha] at ha1
    obtain ⟨s2, pend2, g2⟩ := ih3 (k := k + 1) (args := args) (e := e) (id := id) (ops := ops)
      (n := if id = idBuild then n + 1 else n)
      { s1 with ops := e :: .func id (if id = idBuild then n + 1 else n) :: ops, out := s.out ++ e1.code, last := false } he hd rfl
      ha1 rfl
    refine ⟨s2, pend2, ?_, ?_, ?_, g2.pend, ?_⟩
    · rw [psteps_append, g.run]
      simp only [Res.bind, psteps, pstep]
      rw [ho1, commaLoop_pend he g.pend g.flushed]
      simp only
      exact g2.run
    · rw [g2.ops]
      simp only [Exs.length]
      split <;> simp <;> omega
    · rw [g2.args]
      simp only [Exs.length]
      congr 1
      push_cast
      ring
    · rw [g2.flushed]
      simp [Exs.code]

end Sieve.Expr
