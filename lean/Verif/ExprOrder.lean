import Verif.ExprOps

/-!
C67: the order of texts, of texts and numbers, and of arrays.
-/

namespace Sieve.Expr
variable {F : Type}

/-- A text comes before another one if it is its beginning, or at the first difference has the smaller character. -/
def Before (s t : List Char) : Prop :=
  (∃ c r, t = s ++ c :: r) ∨ ∃ p c d r r', s = p ++ c :: r ∧ t = p ++ d :: r' ∧ c.toNat < d.toNat

theorem before_cons (a b : Char) (as bs : List Char) :
    Before (a :: as) (b :: bs) ↔ a.toNat < b.toNat ∨ (a = b ∧ Before as bs) := by
  constructor
  · rintro (⟨c, r, h⟩ | ⟨p, c, d, r, r', h1, h2, h3⟩)
    · simp only [List.cons_append, List.cons.injEq] at h
      exact .inr ⟨h.1.symm, .inl ⟨c, r, h.2⟩⟩
    · cases p with
      | nil =>
        simp only [List.nil_append, List.cons.injEq] at h1 h2
        exact .inl (by rw [h1.1, h2.1]; exact h3)
      | cons e p =>
        simp only [List.cons_append, List.cons.injEq] at h1 h2
        exact .inr ⟨h1.1.trans h2.1.symm, .inr ⟨p, c, d, r, r', h1.2, h2.2, h3⟩⟩
  · rintro (h | ⟨rfl, ⟨c, r, rfl⟩ | ⟨p, c, d, r, r', rfl, rfl, h3⟩⟩)
    · exact .inr ⟨[], a, b, as, bs, rfl, rfl, h⟩
    · exact .inl ⟨c, r, rfl⟩
    · exact .inr ⟨a :: p, c, d, r, r', rfl, rfl, h3⟩

theorem char_toNat_inj {a b : Char} (h : a.toNat = b.toNat) : a = b :=
  Char.ext (UInt32.toNat_inj.1 h)

theorem cmpStr_lt : ∀ s t : List Char, (cmpStr s t = .lt ↔ Before s t) ∧ (cmpStr s t = .gt ↔ Before t s)
  | [], [] => by simp [cmpStr, Before]
  | [], b :: bs => by
    refine ⟨?_, ?_⟩
    · simp only [cmpStr, true_iff]; exact .inl ⟨b, bs, rfl⟩
    · simp [cmpStr, Before]
  | a :: as, [] => by
    refine ⟨?_, ?_⟩
    · simp [cmpStr, Before]
    · simp only [cmpStr, true_iff]; exact .inl ⟨a, as, rfl⟩
  | a :: as, b :: bs => by
    rw [before_cons, before_cons, cmpStr]
    have ih := cmpStr_lt as bs
    by_cases h1 : a.toNat < b.toNat
    · have hne : b ≠ a := by rintro rfl; omega
      rw [if_pos h1]; simp [h1, hne]; omega
    · rw [if_neg h1]
      by_cases h2 : b.toNat < a.toNat
      · have hne : a ≠ b := by rintro rfl; omega
        rw [if_pos h2]; simp [h1, h2, hne]
      · rw [if_neg h2]
        have : a = b := char_toNat_inj (by omega)
        subst this
        simp [ih]

/-- **C67**: texts are ordered by their first difference. -/
theorem text_order (A : Flt F) (s t : List Char) :
    (binVal A .lt (.str s) (.str t) = .int 1 ↔ Before s t) ∧ (binVal A .gt (.str s) (.str t) = .int 1 ↔ Before t s) := by
  simp only [binVal, bit_one, Val.cmp]
  have := cmpStr_lt s t
  cases h : cmpStr s t <;> simp [h] at this ⊢ <;> simp [this]

example : Before ['a', 'b'] ['a', 'c'] ∧ Before ['a'] ['a', 'c'] ∧ ¬ Before ['b'] ['a', 'c'] := by
  refine ⟨.inr ⟨['a'], 'b', 'c', [], [], rfl, rfl, by decide⟩, .inl ⟨'c', [], rfl⟩, ?_⟩
  rw [← (cmpStr_lt _ _).1]; decide

/-- **C67**: a text is compared with a number as the number it stands for. -/
theorem text_number_order (A : Flt F) {s : List Char} {a w : Val F} (hs : Stands A (.str s) a)
    (hw : (∃ n, w = .int n) ∨ ∃ x, w = .flt x) (o : BinOp) (ho : o ∈ [BinOp.lt, .le, .gt, .ge, .eq, .ne]) :
    binVal A o (.str s) w = binVal A o a w ∧ binVal A o w (.str s) = binVal A o w a := by
  have h := stands_num A hs
  have hc : (Val.str s).cmp A w = a.cmp A w ∧ w.cmp A (.str s) = w.cmp A a := by
    rcases hw with ⟨n, rfl⟩ | ⟨x, rfl⟩ <;> subst h <;> cases hn : (Val.str s).num A <;>
      simp [Val.cmp, hn, Num.cmp, Num.val]
  have hb : (Val.str s).beq A w = a.beq A w ∧ w.beq A (.str s) = w.beq A a := by
    rcases hw with ⟨n, rfl⟩ | ⟨x, rfl⟩ <;> subst h <;> cases hn : (Val.str s).num A <;>
      simp [Val.beq, hn, Num.val]
  simp only [List.mem_cons, List.not_mem_nil, or_false] at ho
  rcases ho with rfl | rfl | rfl | rfl | rfl | rfl <;> simp only [binVal, hc, hb, and_self]

/-- **C67**: numbers of which at least one is a floating point number are compared as such. -/
theorem number_order (A : Flt F) {v w : Val F} {x y : F} (hv : AsFlt A v x) (hw : AsFlt A w y)
    (h : ∀ a b, ¬ (v = .int a ∧ w = .int b)) :
    (binVal A .lt v w = .int 1 ↔ A.cmp x y = some .lt) ∧ (binVal A .gt v w = .int 1 ↔ A.cmp x y = some .gt) := by
  simp only [binVal, bit_one]
  cases hv with
  | @int a =>
    cases hw with
    | @int b => exact absurd ⟨rfl, rfl⟩ (h a b)
    | flt => simp [Val.cmp]
  | flt => cases hw <;> simp [Val.cmp]

/-- An array comes before another one if it is shorter and has the same items, or is before it at the first difference. -/
def ArrBefore (before same : Val F → Val F → Prop) (l l' : List (Val F)) : Prop :=
  ∃ i, i ≤ l.length ∧ i ≤ l'.length ∧ (∀ j < i, ∀ a b, l[j]? = some a → l'[j]? = some b → same a b) ∧
    ((i = l.length ∧ l.length < l'.length) ∨ ∃ a b, l[i]? = some a ∧ l'[i]? = some b ∧ before a b)

theorem arrBefore_cons (before same : Val F → Val F → Prop) (a b : Val F) (as bs : List (Val F)) :
    ArrBefore before same (a :: as) (b :: bs) ↔ before a b ∨ (same a b ∧ ArrBefore before same as bs) := by
  constructor
  · rintro ⟨i, h1, h2, h3, h4⟩
    cases i with
    | zero =>
      rcases h4 with ⟨h, _⟩ | ⟨a', b', e1, e2, h⟩
      · simp at h
      · cases e1; cases e2; exact .inl h
    | succ i =>
      refine .inr ⟨h3 0 (by omega) a b rfl rfl, i, by simpa using h1, by simpa using h2,
        fun j hj a' b' e1 e2 => h3 (j + 1) (by omega) a' b' e1 e2, ?_⟩
      rcases h4 with ⟨h, h'⟩ | ⟨a', b', e1, e2, h⟩
      · exact .inl ⟨by simpa using h, by simpa using h'⟩
      · exact .inr ⟨a', b', e1, e2, h⟩
  · rintro (h | ⟨h, i, h1, h2, h3, h4⟩)
    · exact ⟨0, by simp, by simp, by simp, .inr ⟨a, b, rfl, rfl, h⟩⟩
    · refine ⟨i + 1, by simpa using h1, by simpa using h2, fun j hj a' b' e1 e2 => ?_, ?_⟩
      · cases j with
        | zero => cases e1; cases e2; exact h
        | succ j => exact h3 j (by omega) a' b' e1 e2
      · rcases h4 with ⟨h, h'⟩ | ⟨a', b', e1, e2, h⟩
        · exact .inl ⟨by simpa using h, by simpa using h'⟩
        · exact .inr ⟨a', b', e1, e2, h⟩

theorem cmps_lt (A : Flt F) (r : Ordering) (hr : r = .lt) : ∀ l l' : List (Val F),
    (Val.cmps A l l' = some r ↔ ArrBefore (fun a b => a.cmp A b = some .lt) (fun a b => a.cmp A b = some .eq) l l')
  | [], [] => by subst hr; simp [Val.cmps, ArrBefore]
  | [], b :: bs => by
    subst hr
    simp only [Val.cmps, true_iff]
    exact ⟨0, by simp, by simp, by simp, .inl ⟨rfl, by simp⟩⟩
  | a :: as, [] => by subst hr; simp [Val.cmps, ArrBefore]
  | a :: as, b :: bs => by
    rw [arrBefore_cons, ← cmps_lt A r hr as bs, Val.cmps]
    subst hr
    rcases h : a.cmp A b with _ | r'
    · simp
    · cases r' <;> simp

theorem cmps_gt (A : Flt F) : ∀ l l' : List (Val F),
    (Val.cmps A l l' = some .gt ↔
      ArrBefore (fun b a => a.cmp A b = some .gt) (fun b a => a.cmp A b = some .eq) l' l)
  | [], [] => by simp [Val.cmps, ArrBefore]
  | [], b :: bs => by simp [Val.cmps, ArrBefore]
  | a :: as, [] => by
    simp only [Val.cmps, true_iff]
    exact ⟨0, by simp, by simp, by simp, .inl ⟨rfl, by simp⟩⟩
  | a :: as, b :: bs => by
    rw [arrBefore_cons, ← cmps_gt A as bs, Val.cmps]
    rcases h : a.cmp A b with _ | r'
    · simp
    · cases r' <;> simp

/-- **C67**: arrays are ordered by the first pair of items that are not equal. -/
theorem array_order {A : Flt F} (hA : Ieee A) (l l' : List (Val F)) :
    let holds := fun o (a b : Val F) => binVal A o a b = .int 1
    (holds .lt (.arr l) (.arr l') ↔ ArrBefore (holds .lt) (holds .eq) l l') ∧
    (holds .gt (.arr l) (.arr l') ↔ ArrBefore (fun b a => holds .gt a b) (fun b a => holds .eq a b) l' l) := by
  intro holds
  have he : ∀ a b : Val F, holds .eq a b ↔ a.cmp A b = some .eq := by
    intro a b
    simp only [holds, binVal, bit_one]
    exact beq_cmp_all hA a b
  have hl : ∀ a b : Val F, holds .lt a b ↔ a.cmp A b = some .lt := by
    intro a b; simp only [holds, binVal, bit_one]; rcases a.cmp A b with _ | r <;> [simp; cases r <;> simp]
  have hg : ∀ a b : Val F, holds .gt a b ↔ a.cmp A b = some .gt := by
    intro a b; simp only [holds, binVal, bit_one]; rcases a.cmp A b with _ | r <;> [simp; cases r <;> simp]
  rw [hl, hg]
  simp only [ArrBefore, hl, hg, he]
  constructor
  · rw [Val.cmp, cmps_lt A .lt rfl]; rfl
  · rw [Val.cmp, cmps_gt]; rfl

/-- **C67**: an array and a value of another kind: the array is the greater one, except that a text is greater than an
array, too. -/
theorem array_other_order (A : Flt F) (l : List (Val F)) (v : Val F) (hv : v.scalar = true) :
    binVal A .gt (.arr l) v = .int 1 ∧
    ((∃ s, v = .str s) → binVal A .gt v (.arr l) = .int 1) ∧ ((∀ s, v ≠ .str s) → binVal A .lt v (.arr l) = .int 1) := by
  cases v with
  | arr => cases hv
  | str s => simp [binVal, Val.cmp, bit]
  | int n => simp [binVal, Val.cmp, bit]
  | flt x => simp [binVal, Val.cmp, bit]

example : binVal intFlt .lt (.arr [.int 1, .str ['a']]) (.arr [.int 1, .str ['b'], .int 0]) = .int 1 ∧
    binVal intFlt .lt (.arr [.int 1]) (.arr [.int 1, .int 0]) = .int 1 ∧
    binVal intFlt .lt (.arr [.int 2]) (.arr [.int 1, .int 0]) = .int 0 := by
  refine ⟨?_, ?_, ?_⟩ <;> simp [binVal, Val.cmp, Val.cmps, cmpStr, cmpInt, bit]

end Sieve.Expr
