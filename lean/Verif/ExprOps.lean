import Verif.ExprProps

/-!
# Operators on values

C67: what the operators of expressions compute, for values of all kinds.
-/

namespace Sieve.Expr
variable {F : Type}

/-! ## Specification -/

/-- The values that count as true. -/
inductive Truthy (A : Flt F) : Val F → Prop
  | int : n ≠ 0 → Truthy A (.int n)
  | flt : A.eq x A.zero = false → Truthy A (.flt x)
  | str : Truthy A (.str (c :: s))
  | arr : Truthy A (.arr (v :: l))

/-- The texts of the items of an array, one on each line. -/
def lines : List (List Char) → List Char
  | [] => []
  | [t] => t
  | t :: u :: ts => t ++ '\n' :: lines (u :: ts)

/-- The text of a value. -/
inductive Shows (A : Flt F) : Val F → List Char → Prop
  | str : Shows A (.str s) s
  | int : Shows A (.int n) (A.showInt n)
  | flt : Shows A (.flt x) (A.showFlt x)
  | arr {l : List (Val F)} {ts : List (List Char)} : l.length = ts.length →
      (∀ (i : Nat) v t, l[i]? = some v → ts[i]? = some t → Shows A v t) → Shows A (.arr l) (lines ts)

/-- The number that a value stands for: itself, what a text says as an integer or else as a decimal number, 0 for
other texts. -/
inductive Stands (A : Flt F) : Val F → Val F → Prop
  | int : Stands A (.int n) (.int n)
  | flt : Stands A (.flt x) (.flt x)
  | empty : Stands A (.str []) (.int 0)
  | whole : s ≠ [] → A.parseInt s = some n → Stands A (.str s) (.int n)
  | decimal : s ≠ [] → A.parseInt s = none → A.parseFlt s = some x → Stands A (.str s) (.flt x)
  | other : s ≠ [] → A.parseInt s = none → A.parseFlt s = none → Stands A (.str s) (.int 0)

/-- A number as a floating point number. -/
inductive AsFlt (A : Flt F) : Val F → F → Prop
  | int : AsFlt A (.int n) (A.ofInt n)
  | flt : AsFlt A (.flt x) x

/-- Arithmetic on two numbers: on integers if both are, else on floating point numbers. -/
inductive Arith (A : Flt F) (onInt : Int → Int → Int) (onFlt : F → F → F) : Val F → Val F → Val F → Prop
  | int : Nearest (onInt a b) n → Arith A onInt onFlt (.int a) (.int b) (.int n)
  | flt : AsFlt A v x → AsFlt A w y → (∀ a b, ¬ (v = .int a ∧ w = .int b)) →
      Arith A onInt onFlt v w (.flt (onFlt x y))

/-! ## Truth -/

theorem truthy_iff (A : Flt F) (v : Val F) : v.toBool A = true ↔ Truthy A v := by
  constructor
  · intro h
    cases v with
    | int n => exact .int (by simpa [Val.toBool] using h)
    | flt x => exact .flt (by simpa [Val.toBool] using h)
    | str s =>
      cases s with
      | nil => cases h
      | cons c s => exact .str
    | arr l =>
      cases l with
      | nil => cases h
      | cons c s => exact .arr
  · intro h
    cases h with
    | int h => simpa [Val.toBool] using h
    | flt h => simpa [Val.toBool] using h
    | str => rfl
    | arr => rfl

theorem bit_one (b : Bool) : (bit b : Val F) = .int 1 ↔ b = true := by cases b <;> simp [bit]
theorem bit_zero (b : Bool) : (bit b : Val F) = .int 0 ↔ b = false := by cases b <;> simp [bit]

/-- C67, logical operators: they yield 1 if they hold of the truth of the operands, and else 0. -/
theorem logical_operators (A : Flt F) (a b : Val F) :
    (binVal A .and a b = .int 1 ↔ Truthy A a ∧ Truthy A b) ∧
    (binVal A .or a b = .int 1 ↔ Truthy A a ∨ Truthy A b) ∧
    (binVal A .xor a b = .int 1 ↔ ¬ (Truthy A a ↔ Truthy A b)) ∧
    (unVal A .not a = .int 1 ↔ ¬ Truthy A a) ∧
    (∀ o ∈ [BinOp.and, .or, .xor], binVal A o a b ≠ .int 1 → binVal A o a b = .int 0) ∧
    (unVal A .not a ≠ .int 1 → unVal A .not a = .int 0) := by
  simp only [binVal, unVal, ne_eq, bit_one, bit_zero, ← truthy_iff, List.mem_cons, List.not_mem_nil, or_false]
  refine ⟨by simp, by simp, ?_, by simp, ?_, by simp⟩
  · cases a.toBool A <;> cases b.toBool A <;> simp
  · rintro o (rfl | rfl | rfl) <;> simp only [binVal, bit_one, bit_zero] <;> exact eq_false_of_ne_true

/-! ## Comparison -/

mutual
theorem beq_cmp_all {A : Flt F} (hA : Ieee A) : ∀ a b : Val F, a.beq A b = true ↔ a.cmp A b = some .eq
  | .arr a, .arr b => by rw [Val.beq, Val.cmp]; exact beqs_cmps hA a b
  | .arr a, .int b => by simp [Val.beq, Val.cmp]
  | .arr a, .flt b => by simp [Val.beq, Val.cmp]
  | .arr a, .str b => by simp [Val.beq, Val.cmp]
  | .int a, .arr b => by simp [Val.beq, Val.cmp]
  | .flt a, .arr b => by simp [Val.beq, Val.cmp]
  | .str a, .arr b => by simp [Val.beq, Val.cmp]
  | .int a, .int b => beq_cmp hA rfl rfl
  | .int a, .flt b => beq_cmp hA rfl rfl
  | .int a, .str b => beq_cmp hA rfl rfl
  | .flt a, .int b => beq_cmp hA rfl rfl
  | .flt a, .flt b => beq_cmp hA rfl rfl
  | .flt a, .str b => beq_cmp hA rfl rfl
  | .str a, .int b => beq_cmp hA rfl rfl
  | .str a, .flt b => beq_cmp hA rfl rfl
  | .str a, .str b => beq_cmp hA rfl rfl
theorem beqs_cmps {A : Flt F} (hA : Ieee A) : ∀ a b : List (Val F), Val.beqs A a b = true ↔ Val.cmps A a b = some .eq
  | [], [] => by simp [Val.beqs, Val.cmps]
  | [], _ :: _ => by simp [Val.beqs, Val.cmps]
  | _ :: _, [] => by simp [Val.beqs, Val.cmps]
  | a :: as, b :: bs => by
    rw [Val.beqs, Val.cmps, Bool.and_eq_true, beq_cmp_all hA a b, beqs_cmps hA as bs]
    cases h : Val.cmp A a b with
    | none => simp
    | some r => cases r <;> simp
end

/-- C67, comparisons of values of all kinds: `<=` is `<` or `==`, `>=` is `>` or `==`, `!=` is not `==`, at most one of
`<`, `==` and `>` holds, and the operators yield 1 or 0. -/
theorem comparison_operators {A : Flt F} (hA : Ieee A) (a b : Val F) :
    let holds := fun o (a b : Val F) => binVal A o a b = .int 1
    (holds .le a b ↔ holds .lt a b ∨ holds .eq a b) ∧ (holds .ge a b ↔ holds .gt a b ∨ holds .eq a b) ∧
    (holds .ne a b ↔ ¬ holds .eq a b) ∧ ¬ (holds .lt a b ∧ holds .eq a b) ∧ ¬ (holds .lt a b ∧ holds .gt a b) ∧
    ¬ (holds .eq a b ∧ holds .gt a b) ∧
    ∀ o ∈ [BinOp.le, .ge, .lt, .gt, .eq, .ne], ¬ holds o a b → binVal A o a b = .int 0 := by
  intro holds
  have heq := beq_cmp_all hA a b
  simp only [holds, binVal, bit_one, List.mem_cons, List.not_mem_nil, or_false]
  refine ⟨?_, ?_, ?_, ?_, ?_, ?_, ?_⟩
  · rw [heq]; simp
  · rw [heq]; simp
  · simp
  · rw [heq]
    rintro ⟨h1, h2⟩
    rw [h2] at h1
    exact absurd h1 (by decide)
  · rintro ⟨h1, h2⟩
    simp only [beq_iff_eq] at h1 h2
    rw [h2] at h1
    cases h1
  · rw [heq]
    rintro ⟨h1, h2⟩
    rw [h1] at h2
    exact absurd h2 (by decide)
  · rintro o (rfl | rfl | rfl | rfl | rfl | rfl) <;> simp only [binVal, bit_one, bit_zero] <;> simp

/-! ## C50 for values of all kinds -/

/-- What IEEE 754 says about values that cannot be compared: only NaN cannot, it cannot be compared with itself either,
and no integer is converted to it. -/
structure OnlyNaN (A : Flt F) : Prop where
  nan : ∀ x y, A.cmp x y = none → A.cmp x x = none ∨ A.cmp y y = none
  ofInt : ∀ n, A.cmp (A.ofInt n) (A.ofInt n) ≠ none

/-- The value has no NaN in it, and no string of it is read as NaN. -/
inductive NoNaN (A : Flt F) : Val F → Prop
  | int : NoNaN A (.int n)
  | flt : A.cmp x x ≠ none → NoNaN A (.flt x)
  | str : (∀ x, A.parseFlt s = some x → A.cmp x x ≠ none) → NoNaN A (.str s)
  | arr : (∀ v ∈ l, NoNaN A v) → NoNaN A (.arr l)

/-- Nowhere is a string at the place of an array. -/
inductive Alike : Val F → Val F → Prop
  | scalar : (∀ l, a ≠ .arr l) → (∀ l, b ≠ .arr l) → Alike a b
  | left : (∀ s, a ≠ .str s) → (∀ l, a ≠ .arr l) → Alike a (.arr m)
  | right : (∀ s, b ≠ .str s) → (∀ l, b ≠ .arr l) → Alike (.arr l) b
  | arr : (∀ (i : Nat) a b, l[i]? = some a → m[i]? = some b → Alike a b) → Alike (.arr l) (.arr m)

theorem cmp_some {A : Flt F} (hN : OnlyNaN A) {a : Val F} (ha : NoNaN A a) : ∀ {b : Val F}, NoNaN A b → a.cmp A b ≠ none := by
  have h2 : ∀ x y, A.cmp x x ≠ none → A.cmp y y ≠ none → A.cmp x y ≠ none := by
    intro x y hx hy h
    rcases hN.nan x y h with h | h
    · exact hx h
    · exact hy h
  have hnum : ∀ s, NoNaN A (.str s : Val F) → ∀ x, (Val.str s).num A = .flt x → A.cmp x x ≠ none := by
    intro s hs x hx
    cases hs with
    | str hs =>
      refine hs x ?_
      simp only [Val.num] at hx
      split at hx
      · cases hx
      · split at hx
        · cases hx
        · split at hx
          · rename_i h; cases hx; exact h
          · cases hx
  induction ha with
  | int =>
    intro b hb
    cases hb with
    | int => simp [Val.cmp]
    | flt h => exact h2 _ _ (hN.ofInt _) h
    | @str s h =>
      simp only [Val.cmp]
      cases hs : (Val.str s).num A with
      | int => simp [Num.cmp]
      | flt x => exact h2 _ _ (hN.ofInt _) (hnum s (.str h) x hs)
    | arr => simp [Val.cmp]
  | flt hx =>
    intro b hb
    cases hb with
    | int => exact h2 _ _ hx (hN.ofInt _)
    | flt h => exact h2 _ _ hx h
    | @str s h =>
      simp only [Val.cmp]
      cases hs : (Val.str s).num A with
      | int => exact h2 _ _ hx (hN.ofInt _)
      | flt x => exact h2 _ _ hx (hnum s (.str h) x hs)
    | arr => simp [Val.cmp]
  | @str s hx =>
    intro b hb
    cases hb with
    | int =>
      simp only [Val.cmp]
      cases hs : (Val.str s).num A with
      | int => simp [Num.cmp]
      | flt x => exact h2 _ _ (hnum s (.str hx) x hs) (hN.ofInt _)
    | flt h =>
      simp only [Val.cmp]
      cases hs : (Val.str s).num A with
      | int => exact h2 _ _ (hN.ofInt _) h
      | flt x => exact h2 _ _ (hnum s (.str hx) x hs) h
    | str => simp [Val.cmp]
    | arr => simp [Val.cmp]
  | @arr l hl ih =>
    intro b hb
    cases hb with
    | int => simp [Val.cmp]
    | flt h => simp [Val.cmp]
    | str h => simp [Val.cmp]
    | @arr m hm =>
      rw [Val.cmp]
      induction l generalizing m with
      | nil => cases m <;> simp [Val.cmps]
      | cons a as ihl =>
        cases m with
        | nil => simp [Val.cmps]
        | cons b bs =>
          rw [Val.cmps]
          have h1 := ih a List.mem_cons_self (hm b List.mem_cons_self)
          split
          · exact ihl (fun v hv => hl v (List.mem_cons_of_mem _ hv))
              (fun v hv {_} => ih v (List.mem_cons_of_mem _ hv)) (fun v hv => hm v (List.mem_cons_of_mem _ hv))
          · exact h1

theorem cmp_swap_alike {A : Flt F} (hA : Ieee A) {a b : Val F} (h : Alike a b) : b.cmp A a = (a.cmp A b).map Ordering.swap := by
  induction h with
  | @scalar a b ha hb =>
    refine cmp_swap hA ?_ ?_
    · cases a <;> first | rfl | exact absurd rfl (ha _)
    · cases b <;> first | rfl | exact absurd rfl (hb _)
  | @left a m h1 h2 =>
    cases a with
    | str s => exact absurd rfl (h1 s)
    | arr l => exact absurd rfl (h2 l)
    | int n => simp [Val.cmp]
    | flt x => simp [Val.cmp]
  | @right b l h1 h2 =>
    cases b with
    | str s => exact absurd rfl (h1 s)
    | arr l => exact absurd rfl (h2 l)
    | int n => simp [Val.cmp]
    | flt x => simp [Val.cmp]
  | @arr l m hlm ih =>
    rw [Val.cmp, Val.cmp]
    induction l generalizing m with
    | nil => cases m <;> simp [Val.cmps]
    | cons a as ihl =>
      cases m with
      | nil => simp [Val.cmps]
      | cons b bs =>
        have h1 := ih 0 a b rfl rfl
        have h2 := ihl (m := bs) (fun i x y hx hy => hlm (i + 1) x y hx hy)
          (fun i x y hx hy => ih (i + 1) x y hx hy)
        rw [Val.cmps, Val.cmps, h1]
        cases Val.cmp A a b with
        | none => rfl
        | some r => cases r <;> first | rfl | exact h2

/-- C50 for values of all kinds, arrays of arrays among them, in which there is no NaN: exactly one of `<`, `==` and `>`
holds; `<=`, `>=` and `!=` agree with them; and if nowhere a string is at the place of an array, `a < b` is `b > a`.

Missing: strings compared with arrays, for which `a < b` is not `b > a`; see `string_array_order`. -/
theorem comparison_all_partial {A : Flt F} (hA : Ieee A) (hN : OnlyNaN A) {a b : Val F} (ha : NoNaN A a) (hb : NoNaN A b) :
    let holds := fun o (a b : Val F) => binVal A o a b = .int 1
    ((holds .lt a b ∧ ¬ holds .eq a b ∧ ¬ holds .gt a b) ∨ (¬ holds .lt a b ∧ holds .eq a b ∧ ¬ holds .gt a b) ∨
      (¬ holds .lt a b ∧ ¬ holds .eq a b ∧ holds .gt a b)) ∧
    (holds .le a b ↔ holds .lt a b ∨ holds .eq a b) ∧ (holds .ge a b ↔ holds .gt a b ∨ holds .eq a b) ∧
    (holds .ne a b ↔ ¬ holds .eq a b) ∧
    (Alike a b → (holds .lt a b ↔ holds .gt b a) ∧ (holds .gt a b ↔ holds .lt b a) ∧ (holds .le a b ↔ holds .ge b a) ∧
      (holds .eq a b ↔ holds .eq b a)) := by
  intro holds
  have heq := beq_cmp_all hA a b
  have heq' := beq_cmp_all hA b a
  have hc := cmp_some hN ha hb
  simp only [holds, binVal, bit_one]
  cases hcmp : a.cmp A b with
  | none => exact absurd hcmp hc
  | some r =>
    rw [hcmp] at heq
    have he : a.beq A b = decide (r = .eq) := by
      cases r <;> simp at heq <;> simp [heq]
    refine ⟨?_, ?_, ?_, ?_, fun hl => ?_⟩
    · rw [he]; cases r <;> simp
    · rw [he]; cases r <;> simp
    · rw [he]; cases r <;> simp
    · rw [he]; cases r <;> simp
    · have hsw := cmp_swap_alike hA hl
      rw [hcmp] at hsw
      rw [hsw] at heq'
      have he' : b.beq A a = decide (r = .eq) := by
        cases r <;> simp at heq' <;> simp [heq']
      rw [he, he', hsw]
      cases r <;> simp

example : OnlyNaN intFlt ∧ NoNaN intFlt (.arr [.str ['a'], .arr [.int 3]]) ∧
    Alike (.arr [.str ['a'], .arr [.int 3]]) (.arr [.str ['a'], .arr [.flt 4]] : Val Int) ∧
    binVal intFlt .lt (.arr [.str ['a'], .arr [.int 3]]) (.arr [.str ['a'], .arr [.flt 4]]) = .int 1 := by
  refine ⟨⟨by simp [intFlt], by simp [intFlt]⟩, ?_, ?_, by simp [binVal, Val.cmp, Val.cmps, cmpStr, intFlt, cmpInt, bit]⟩
  · refine .arr fun v hv => ?_
    simp only [List.mem_cons, List.not_mem_nil, or_false] at hv
    rcases hv with rfl | rfl
    · exact .str (by simp [intFlt])
    · refine .arr fun v hv => ?_
      simp only [List.mem_cons, List.not_mem_nil, or_false] at hv
      subst hv
      exact .int
  · refine .arr fun i a b ha hb => ?_
    match i with
    | 0 => cases ha; cases hb; exact .scalar (by simp) (by simp)
    | 1 =>
      cases ha; cases hb
      refine .arr fun i a b ha hb => ?_
      match i with
      | 0 => cases ha; cases hb; exact .scalar (by simp) (by simp)

/-- The order is not transitive: if numbers are read from strings, 10 is less than 9 as a string, and 9 is less than 10 as a
number: `"10" < "9"`, `"9" <= 9` and `9 < "10"`. -/
theorem order_not_transitive {A : Flt F} (h9 : A.parseInt ['9'] = some 9) (h10 : A.parseInt ['1', '0'] = some 10) :
    binVal A .lt (.str ['1', '0']) (.str ['9']) = .int 1 ∧ binVal A .le (.str ['9']) (.int 9) = .int 1 ∧
    binVal A .lt (.int 9) (.str ['1', '0']) = .int 1 := by
  refine ⟨by simp [binVal, Val.cmp, cmpStr, bit], ?_, ?_⟩ <;> simp [binVal, Val.cmp, Val.num, Val.beq, h9, h10, Num.cmp, cmpInt, bit]

/-- Arrays are equal exactly if they have the same length and equal items; no array equals a value of another kind. -/
theorem array_equality (A : Flt F) (l : List (Val F)) (v : Val F) :
    binVal A .eq (.arr l) v = .int 1 ↔ ∃ l', v = .arr l' ∧ l.length = l'.length ∧
      ∀ (i : Nat) a b, l[i]? = some a → l'[i]? = some b → binVal A .eq a b = .int 1 := by
  have hl : ∀ l l' : List (Val F), Val.beqs A l l' = true ↔ l.length = l'.length ∧
      ∀ (i : Nat) a b, l[i]? = some a → l'[i]? = some b → a.beq A b = true := by
    intro l
    induction l with
    | nil => intro l'; cases l' <;> simp [Val.beqs]
    | cons a as ih =>
      intro l'
      cases l' with
      | nil => simp [Val.beqs]
      | cons b bs =>
        rw [Val.beqs, Bool.and_eq_true, ih]
        constructor
        · rintro ⟨h1, h2, h3⟩
          refine ⟨by simp [h2], fun i a' b' => ?_⟩
          cases i with
          | zero => intro e1 e2; cases e1; cases e2; exact h1
          | succ i => exact h3 i a' b'
        · rintro ⟨h1, h2⟩
          exact ⟨h2 0 a b rfl rfl, by simpa using h1, fun i a' b' => h2 (i + 1) a' b'⟩
  simp only [binVal, bit_one]
  cases v with
  | arr l' =>
    rw [Val.beq, hl]
    constructor
    · exact fun h => ⟨l', rfl, h⟩
    · rintro ⟨l'', e, h⟩
      cases e
      exact h
  | _ => simp [Val.beq]

/-- Texts and integers are compared as such. -/
theorem comparison_plain (A : Flt F) (s t : List Char) (m n : Int) :
    (binVal A .eq (.str s) (.str t) = .int 1 ↔ s = t) ∧ (binVal A .eq (.int m) (.int n) = .int 1 ↔ m = n) ∧
    (binVal A .lt (.int m) (.int n) = .int 1 ↔ m < n) ∧ (binVal A .gt (.int m) (.int n) = .int 1 ↔ n < m) := by
  simp only [binVal, bit_one, Val.beq, Val.cmp, cmpInt]
  refine ⟨by simp, by simp, ?_, ?_⟩
  · split <;> [skip; split] <;> simp <;> omega
  · split <;> [skip; split] <;> simp <;> omega

/-! ## Text and numbers -/

theorem show_lines (A : Flt F) (l : List (Val F)) : Val.show A (.arr l) = lines (l.map (Val.show A)) := by
  cases l with
  | nil => rw [Val.show]; rfl
  | cons v vs =>
    rw [Val.show]
    have : ∀ (vs : List (Val F)) (t : List Char), t ++ Val.shows A vs = lines (t :: vs.map (Val.show A)) := by
      intro vs
      induction vs with
      | nil => intro t; simp [Val.shows, lines]
      | cons w ws ih =>
        intro t
        rw [Val.shows, ih, List.map_cons, lines]
    exact this vs _

mutual
theorem shows_show (A : Flt F) : ∀ v : Val F, Shows A v (v.show A)
  | .str s => by rw [Val.show]; exact .str
  | .int n => by rw [Val.show]; exact .int
  | .flt x => by rw [Val.show]; exact .flt
  | .arr l => by
    rw [show_lines]
    refine .arr (by simp) fun i v t h1 h2 => ?_
    rw [List.getElem?_map, h1] at h2
    cases h2
    exact shows_list A l v (List.mem_of_getElem? h1)
theorem shows_list (A : Flt F) : ∀ l : List (Val F), ∀ v ∈ l, Shows A v (v.show A)
  | [] => fun _ h => nomatch h
  | v :: vs => fun w h =>
    (List.mem_cons.mp h).elim (fun e => e ▸ shows_show A v) (shows_list A vs w)
end

theorem stands_num (A : Flt F) {v w : Val F} (h : Stands A v w) : (v.num A).val = w := by
  cases h with
  | int => rfl
  | flt => rfl
  | empty => rfl
  | whole h1 h2 => simp [Val.num, h1, h2, Num.val]
  | decimal h1 h2 h3 => simp [Val.num, h1, h2, h3, Num.val]
  | other h1 h2 h3 => simp [Val.num, h1, h2, h3, Num.val]

/-- Every text or number stands for a number. -/
theorem stands_exists (A : Flt F) {v : Val F} (h : v.scalar = true) : ∃ w, Stands A v w := by
  cases v with
  | int n => exact ⟨_, .int⟩
  | flt x => exact ⟨_, .flt⟩
  | arr l => cases h
  | str s =>
    by_cases hs : s = []
    · rw [hs]; exact ⟨_, .empty⟩
    · cases h1 : A.parseInt s with
      | some n => exact ⟨_, .whole hs h1⟩
      | none =>
        cases h2 : A.parseFlt s with
        | some x => exact ⟨_, .decimal hs h1 h2⟩
        | none => exact ⟨_, .other hs h1 h2⟩

theorem num_val_inj {v : Val F} {n m : Num F} (h1 : n.val = v) (h2 : m.val = v) : n = m := by
  subst h1
  cases n <;> cases m <;> simp [Num.val] at h2 <;> simp [h2]

/-- C67, subtraction and multiplication of texts and numbers: they work on the numbers that these stand for. -/
theorem arithmetic (A : Flt F) (hadd : ∀ a b, A.mul a b = A.mul b a) {v w a b : Val F} (hv : Stands A v a)
    (hw : Stands A w b) :
    Arith A (· - ·) A.sub a b (binVal A .sub v w) ∧ Arith A (· * ·) A.mul a b (binVal A .mul v w) := by
  have e1 := stands_num A hv
  have e2 := stands_num A hw
  have hsv : v.scalar = true := by cases hv <;> rfl
  have hsw : w.scalar = true := by cases hw <;> rfl
  have hs : binVal A .sub v w = Num.sub A (v.num A) (w.num A) := by
    cases v <;> cases w <;> first | rfl | (simp [Val.scalar] at hsv; done) | (simp [Val.scalar] at hsw; done)
  rw [hs]
  simp only [binVal, Val.mul]
  revert e1 e2
  cases v.num A <;> cases w.num A <;> (intro e1 e2; subst e1; subst e2)
  · exact ⟨.int (sat_nearest _), .int (sat_nearest _)⟩
  · exact ⟨.flt .int .flt (by simp [Num.val]), .flt .int .flt (by simp [Num.val])⟩
  · refine ⟨.flt .flt .int (by simp [Num.val]), ?_⟩
    simp only
    rw [hadd]
    exact .flt .flt .int (by simp [Num.val])
  · exact ⟨.flt .flt .flt (by simp [Num.val]), .flt .flt .flt (by simp [Num.val])⟩

/-- C67, division: the quotient of the numbers as floating point numbers, zero if the divisor is zero. -/
theorem division (A : Flt F) {v w a b : Val F} {x y : F} (hv : Stands A v a) (hw : Stands A w b) (hx : AsFlt A a x)
    (hy : AsFlt A b y) (hz : ∀ n, A.eq (A.ofInt n) A.zero = true ↔ n = 0) :
    (A.eq y A.zero = false → binVal A .div v w = .flt (A.div x y)) ∧
    (A.eq y A.zero = true → binVal A .div v w = .flt A.zero) := by
  have e1 := stands_num A hv
  have e2 := stands_num A hw
  simp only [binVal, Val.div]
  revert e1 e2
  cases v.num A <;> cases w.num A <;> (intro e1 e2; subst e1; subst e2; cases hx; cases hy)
  all_goals simp only []
  · constructor <;> intro h <;> simp [← hz, h]
  · constructor <;> intro h <;> simp [h]
  · constructor <;> intro h <;> simp [← hz, h]
  · constructor <;> intro h <;> simp [h]

/-- C67, addition: numbers are added, arrays joined or extended; an empty text changes nothing, and otherwise texts are
written one after the other. -/
theorem addition (A : Flt F) (hadd : ∀ a b, A.add a b = A.add b a) :
    (∀ m n, Arith A (· + ·) A.add (.int m) (.int n) (binVal A .add (.int m) (.int n))) ∧
    (∀ m x, Arith A (· + ·) A.add (.int m) (.flt x) (binVal A .add (.int m) (.flt x))) ∧
    (∀ m x, Arith A (· + ·) A.add (.flt x) (.int m) (binVal A .add (.flt x) (.int m))) ∧
    (∀ x y, Arith A (· + ·) A.add (.flt x) (.flt y) (binVal A .add (.flt x) (.flt y))) ∧
    (∀ l l', binVal A .add (.arr l) (.arr l') = .arr (l ++ l')) ∧
    (∀ l v, v.scalar = true → binVal A .add (.arr l) v = .arr (l ++ [v]) ∧ binVal A .add v (.arr l) = .arr (v :: l)) ∧
    (∀ v, v.scalar = true → binVal A .add (.str []) v = v ∧ binVal A .add v (.str []) = v) ∧
    (∀ s t, binVal A .add (.str s) (.str t) = .str (s ++ t)) ∧
    ∀ s v t, s ≠ [] → v.scalar = true → Shows A v t →
      binVal A .add (.str s) v = .str (s ++ t) ∧ binVal A .add v (.str s) = .str (t ++ s) := by
  refine ⟨fun m n => .int (sat_nearest _), fun m x => .flt .int .flt (by simp), fun m x => ?_,
    fun x y => .flt .flt .flt (by simp), fun l l' => rfl, fun l v hv => ?_, fun v hv => ?_, fun s t => ?_,
    fun s v t hs hv ht => ?_⟩
  · simp only [binVal, Val.add]
    rw [hadd]
    exact .flt .flt .int (by simp)
  · cases v <;> first | exact ⟨rfl, rfl⟩ | cases hv
  · cases v with
    | str s => cases s <;> simp [binVal, Val.add, Val.show]
    | arr l => cases hv
    | _ => simp [binVal, Val.add]
  · cases s <;> simp [binVal, Val.add, Val.show]
  · have he : s.isEmpty = false := by cases s <;> [exact (hs rfl).elim; rfl]
    cases ht with
    | str =>
      cases t with
      | nil => simp [binVal, Val.add, Val.show, he]
      | cons c u => simp [binVal, Val.add, Val.show, he]
    | int => simp [binVal, Val.add, Val.show, he]
    | flt => simp [binVal, Val.add, Val.show, he]
    | arr => cases hv

/-- C67, removing from an array: the items that are not equal to the value remain, in their order. -/
theorem array_removal (A : Flt F) (l : List (Val F)) (v : Val F) :
    ∃ r, binVal A .sub (.arr l) v = .arr r ∧ r.Sublist l ∧ ∀ w, w ∈ r ↔ w ∈ l ∧ binVal A .eq w v ≠ .int 1 := by
  refine ⟨l.filter fun w => !Val.beq A w v, rfl, List.filter_sublist, fun w => ?_⟩
  simp [List.mem_filter, binVal, bit_one]

/-- C67, access by index: the item of an array, the value itself at index 0 of anything that is neither an array nor
empty, and otherwise the empty text. -/
theorem array_access (A : Flt F) (i : Nat) (hi : (i : Int) < 9223372036854775808) :
    (∀ l v, l[i]? = some v → accessVal A (.arr l) (.int i) = v) ∧
    (∀ l : List (Val F), l.length ≤ i → accessVal A (.arr l) (.int i) = .str []) ∧
    (∀ v : Val F, v.scalar = true → accessVal A v (.int 0) = v) ∧
    (∀ v : Val F, v.scalar = true → i ≠ 0 → accessVal A v (.int i) = .str []) ∧
    ∀ (v : Val F) (n : Int), I64 n → n < 0 → v.items.length < 9223372036854775808 →
      accessVal A v (.int n) = .str [] := by
  have hidx : (Val.int (i : Int) : Val F).index A = i := by
    simp only [Val.index]
    omega
  have h0 : (Val.int 0 : Val F).index A = 0 := rfl
  refine ⟨fun l v h => ?_, fun l h => ?_, fun v hv => ?_, fun v hv h => ?_, fun v n hn hn' hl => ?_⟩
  · simp only [accessVal, hidx, Val.items, h]
  · simp only [accessVal, hidx, Val.items, List.getElem?_eq_none h]
  · rw [accessVal, h0]
    cases v with
    | str s => cases s <;> rfl
    | arr l => cases hv
    | _ => rfl
  · rw [accessVal, hidx]
    have : v.items[i]? = none := by
      apply List.getElem?_eq_none
      cases v with
      | str s => cases s <;> simp [Val.items]; omega
      | arr l => cases hv
      | _ => simp [Val.items]; omega
    rw [this]
  · have : v.items[(Val.int n : Val F).index A]? = none := by
      apply List.getElem?_eq_none
      simp only [Val.index]
      unfold I64 at hn
      omega
    rw [accessVal, this]

/-! ## Disagreements -/

/-- As an operand of `*` an empty array is 1 and other arrays are 0, although only the others count as true. -/
theorem array_number (A : Flt F) (v : Val F) (l : List (Val F)) :
    binVal A .mul (.arr []) (.int 1) = .int 1 ∧ binVal A .mul (.arr (v :: l)) (.int 1) = .int 0 ∧
    ¬ Truthy A (.arr []) ∧ Truthy A (.arr (v :: l)) :=
  ⟨rfl, rfl, (fun h => nomatch h), .arr⟩

/-- `==` is not transitive: two different spellings of a number equal the number. -/
theorem equality_not_transitive (A : Flt F) (h1 : A.parseInt ['1'] = some 1) (h2 : A.parseInt ['0', '1'] = some 1) :
    binVal A .eq (.str ['1']) (.int 1) = .int 1 ∧ binVal A .eq (.int 1) (.str ['0', '1']) = .int 1 ∧
    binVal A .eq (.str ['1']) (.str ['0', '1']) ≠ .int 1 := by
  simp only [binVal, bit_one]
  refine ⟨?_, ?_, by simp [Val.beq, bit_one]⟩
  · simp [Val.beq, Val.num, h1]
  · simp [Val.beq, Val.num, h2]

/-! ## Examples -/

example : Truthy intFlt (.str ['0']) := .str
example : binVal intFlt .xor (.int 2) (.arr [.int 0]) = .int 0 := by rfl
example : Shows intFlt (.arr [.str ['a'], .str ['b']]) ['a', '\n', 'b'] :=
  .arr (ts := [['a'], ['b']]) rfl fun i v t h1 h2 => by
    match i with
    | 0 => cases h1; cases h2; exact .str
    | 1 => cases h1; cases h2; exact .str
    | n + 2 => cases h1
example : binVal intFlt .add (.str ['x']) (.arr []) = .arr [.str ['x']] := by rfl
example : binVal intFlt .sub (.arr [.int 1, .int 2, .int 1]) (.int 1) = .arr [.int 2] := by
  simp [binVal, Val.sub, Val.beq]
example : accessVal intFlt (.arr [.int 5, .int 6]) (.int 1) = .int 6 := by rfl
example : Arith intFlt (· - ·) intFlt.sub (.int 1) (.int 3) (.int (-2)) := .int (sat_nearest _)

end Sieve.Expr
