import Verif.TestsModel
import Verif.ExprOps
import Verif.HvarModel
import Verif.OtherTestsModel
import Verif.TestsProps

/-!
# Texts, numbers and hashes of values

C106: the text of an array; C107: the number a text stands for; C108: equal values have equal hashes.

`Tests.text` is `Variable::to_string`, `Tests.number` is `Variable::to_number` (tests), `Val.num` is
`Variable::parse_number` (expressions), `Val.show` is the `Display` of a value (joining strings in
expressions).
-/

namespace Sieve.Value
open Sieve.Expr (Val Flt)
variable {F : Type}

/-! ## Model -/

/-- What is written to a `Hasher`: numbers of 8 bytes, and texts. -/
inductive Word where
  | text (s : List Char)
  | u64 (n : Nat)
deriving DecidableEq

/-- An `i64` as its 8 bytes. -/
def i64Bits (n : Int) : Nat := (n % 18446744073709551616).toNat

mutual
/-- `Hash for Variable`, `src/runtime/mod.rs:295-304`; a `Vec` writes its length and then its items; `bits` is
`f64::to_bits`. -/
def hash (bits : F → Nat) : Val F → List Word
  | .str s => [.text s]
  | .int n => [.u64 (i64Bits n)]
  | .flt x => [.u64 (bits x)]
  | .arr l => .u64 l.length :: hashes bits l
def hashes (bits : F → Nat) : List (Val F) → List Word
  | [] => []
  | v :: vs => hash bits v ++ hashes bits vs
end

/-! ## Texts of arrays (C106) -/

/-- Texts on lines of their own. -/
def joined : List (List Char) → List Char
  | [] => []
  | [t] => t
  | t :: u :: ts => t ++ '\r' :: '\n' :: joined (u :: ts)

/-- The text of an item of an array. -/
inductive ItemText (A : Flt F) : Val F → List Char → Prop
  | str : ItemText A (.str s) s
  | int : ItemText A (.int n) (A.showInt n)
  | flt : ItemText A (.flt x) (A.showFlt x)
  | arr : ItemText A (.arr l) []

/-- There is no line break in a text. -/
def OneLine (t : List Char) : Prop := ∀ a b, t ≠ a ++ '\r' :: '\n' :: b

/-- The text of an item, as a function. -/
def itemText (A : Flt F) : Val F → List Char
  | .str s => s
  | .int n => A.showInt n
  | .flt x => A.showFlt x
  | .arr _ => []

theorem itemText_iff (A : Flt F) (v : Val F) (t : List Char) : ItemText A v t ↔ itemText A v = t := by
  constructor
  · rintro (_ | _ | _ | _) <;> rfl
  · rintro rfl
    cases v <;> constructor

theorem addItem_eq (A : Flt F) (acc : List Char) (v : Val F) :
    Tests.addItem A acc v = (if acc = [] then [] else acc ++ ['\r', '\n']) ++ itemText A v := by
  cases acc <;> cases v <;> simp [Tests.addItem, itemText]

theorem fold_ne (A : Flt F) (l : List (Val F)) (acc : List Char) (h : acc ≠ []) :
    l.foldl (Tests.addItem A) acc = joined (acc :: l.map (itemText A)) := by
  induction l generalizing acc with
  | nil => rfl
  | cons v vs ih =>
    rw [List.foldl_cons, addItem_eq, if_neg h, ih _ (by simp)]
    simp only [List.map_cons, joined]
    cases vs with
    | nil => simp [joined]
    | cons w ws => simp [joined]

theorem fold_nil (A : Flt F) (l : List (Val F)) :
    l.foldl (Tests.addItem A) [] = joined ((l.map (itemText A)).dropWhile List.isEmpty) := by
  induction l with
  | nil => rfl
  | cons v vs ih =>
    rw [List.foldl_cons, addItem_eq, if_pos rfl, List.nil_append]
    by_cases h : itemText A v = []
    · rw [h, ih, List.map_cons, h]; rfl
    · rw [fold_ne A _ _ h, List.map_cons, List.dropWhile_cons_of_neg (by simpa using h)]

theorem items_map (A : Flt F) {l : List (Val F)} {ts : List (List Char)} (hl : l.length = ts.length)
    (h : ∀ (i : Nat) v t, l[i]? = some v → ts[i]? = some t → ItemText A v t) : l.map (itemText A) = ts := by
  apply List.ext_getElem?
  intro i
  rw [List.getElem?_map]
  by_cases hi : i < l.length
  · have hi' : i < ts.length := hl ▸ hi
    rw [List.getElem?_eq_getElem hi, List.getElem?_eq_getElem hi']
    have := h i _ _ (List.getElem?_eq_getElem hi) (List.getElem?_eq_getElem hi')
    simp [(itemText_iff A _ _).1 this]
  · rw [List.getElem?_eq_none (by omega), List.getElem?_eq_none (by omega)]; rfl

/-- **C106.** The text of an array has the texts of its items on lines of their own, without the empty ones before the
first that is not. -/
theorem array_text (A : Flt F) (l : List (Val F)) (es ts : List (List Char)) (hl : l.length = es.length + ts.length)
    (h : ∀ (i : Nat) v t, l[i]? = some v → (es ++ ts)[i]? = some t → ItemText A v t) (he : ∀ t ∈ es, t = [])
    (ht : ts.head? ≠ some []) : Tests.text A (.arr l) = joined ts := by
  have hm := items_map A (ts := es ++ ts) (by simpa using hl) h
  show l.foldl (Tests.addItem A) [] = _
  rw [fold_nil, hm]
  have : (es ++ ts).dropWhile List.isEmpty = ts := by
    induction es with
    | nil =>
      cases ts with
      | nil => rfl
      | cons t ts => exact List.dropWhile_cons_of_neg (by simpa using ht)
    | cons e es ih =>
      have : e = [] := he e (by simp)
      subst this
      rw [List.cons_append, List.dropWhile_cons_of_pos (by rfl)]
      clear h hm ih hl
      induction es with
      | nil =>
        cases ts with
        | nil => rfl
        | cons t ts => exact List.dropWhile_cons_of_neg (by simpa using ht)
      | cons e es ih =>
        have : e = [] := he e (by simp)
        subst this
        rw [List.cons_append, List.dropWhile_cons_of_pos (by rfl)]
        exact ih (by intro t h'; exact he t (by simp at h' ⊢; tauto))
  rw [this]

example : Tests.text Tests.exExt.flt (.arr [.str [], .arr [.str ['x']], .str ['a'], .str [], .str ['b']]) =
    ['a', '\r', '\n', '\r', '\n', 'b'] :=
  array_text _ _ [[], []] [['a'], [], ['b']] rfl (by
    intro i v t hv ht
    have : i = 0 ∨ i = 1 ∨ i = 2 ∨ i = 3 ∨ i = 4 ∨ 5 ≤ i := by omega
    rcases this with rfl | rfl | rfl | rfl | rfl | h
    · simp at hv ht; subst hv ht; exact .str
    · simp at hv ht; subst hv ht; exact .arr
    · simp at hv ht; subst hv ht; exact .str
    · simp at hv ht; subst hv ht; exact .str
    · simp at hv ht; subst hv ht; exact .str
    · rw [List.getElem?_eq_none (by simpa using h)] at hv
      simp at hv) (by simp) (by simp)

theorem oneLine_tail {c : Char} {t : List Char} (h : OneLine (c :: t)) : OneLine t := by
  intro a b hab
  exact h (c :: a) b (by rw [hab]; rfl)

/-- The first line determines the rest. -/
theorem line_split {a b x y : List Char} (ha : OneLine (a ++ ['\r'])) (hb : OneLine (b ++ ['\r']))
    (h : a ++ '\r' :: '\n' :: x = b ++ '\r' :: '\n' :: y) : a = b ∧ x = y := by
  induction a generalizing b with
  | nil =>
    cases b with
    | nil => simpa using h
    | cons c b =>
      simp only [List.nil_append, List.cons_append, List.cons.injEq] at h
      obtain ⟨rfl, h⟩ := h
      cases b with
      | nil => simp at h
      | cons d b =>
        simp only [List.cons_append, List.cons.injEq] at h
        obtain ⟨rfl, h⟩ := h
        exact absurd rfl (hb [] (b ++ ['\r']))
  | cons c a ih =>
    cases b with
    | nil =>
      simp only [List.nil_append, List.cons_append, List.cons.injEq] at h
      obtain ⟨rfl, h⟩ := h
      cases a with
      | nil => simp at h
      | cons d a =>
        simp only [List.cons_append, List.cons.injEq] at h
        obtain ⟨rfl, h⟩ := h
        exact absurd rfl (ha [] (a ++ ['\r']))
    | cons d b =>
      simp only [List.cons_append, List.cons.injEq] at h
      obtain ⟨rfl, h⟩ := h
      obtain ⟨rfl, rfl⟩ := ih (oneLine_tail ha) (oneLine_tail hb) h
      exact ⟨rfl, rfl⟩

theorem oneLine_left {a b : List Char} (h : OneLine (a ++ b)) : OneLine a := by
  intro x y hxy
  exact h x (y ++ b) (by rw [hxy]; simp)

theorem joined_inj : ∀ {ts us : List (List Char)}, ts ≠ [] → us ≠ [] → (∀ t ∈ ts, OneLine (t ++ ['\r'])) →
    (∀ t ∈ us, OneLine (t ++ ['\r'])) → joined ts = joined us → ts = us
  | [], _, h, _, _, _, _ => absurd rfl h
  | _, [], _, h, _, _, _ => absurd rfl h
  | [t], [u], _, _, _, _, h => by simp only [joined] at h; rw [h]
  | [t], u :: v :: us, _, _, ht, _, h => by
    simp only [joined] at h
    exact absurd h ((oneLine_left (ht t (by simp))) _ _)
  | t :: v :: ts, [u], _, _, _, hu, h => by
    simp only [joined] at h
    exact absurd h.symm ((oneLine_left (hu u (by simp))) _ _)
  | t :: v :: ts, u :: w :: us, _, _, ht, hu, h => by
    simp only [joined] at h
    obtain ⟨rfl, h'⟩ := line_split (ht t (by simp)) (hu u (by simp)) h
    have := joined_inj (ts := v :: ts) (us := w :: us) (by simp) (by simp)
      (fun x hx => ht x (List.mem_cons_of_mem _ hx)) (fun x hx => hu x (List.mem_cons_of_mem _ hx)) h'
    rw [this]

/-- **C106.** Arrays of texts, of which none is empty and none has line breaks or ends with a carriage return, have the
same text only if they are the same.  (The theorem is partial in that these hypotheses are needed: `leading_empty_lost`,
`line_break_splits`, `nested_lost`.) -/
theorem array_text_inj_partial (A : Flt F) (l k : List (List Char)) (hl : l ≠ []) (hk : k ≠ [])
    (h : ∀ t ∈ l ++ k, t ≠ [] ∧ OneLine (t ++ ['\r'])) :
    Tests.text A (.arr (l.map .str)) = Tests.text A (.arr (k.map .str)) ↔ l = k := by
  constructor
  · intro he
    have g : ∀ m : List (List Char), (∀ t ∈ m, t ≠ []) → Tests.text A (.arr (m.map .str)) = joined m := by
      intro m hm
      refine array_text A _ [] m (by simp) ?_ (by simp) ?_
      · intro i v t hv ht
        simp only [List.getElem?_map, List.nil_append] at hv ht
        rw [ht] at hv
        simp only [Option.map_some, Option.some.injEq] at hv
        subst hv
        exact .str
      · intro h0
        cases m with
        | nil => simp at h0
        | cons t m =>
          simp only [List.head?_cons, Option.some.injEq] at h0
          exact hm t (by simp) h0
    rw [g l fun t ht => (h t (by simp [ht])).1, g k fun t ht => (h t (by simp [ht])).1] at he
    exact joined_inj hl hk (fun t ht => (h t (by simp [ht])).2) (fun t ht => (h t (by simp [ht])).2) he
  · rintro rfl; rfl

theorem oneLine_chars {t : List Char} (h : '\n' ∉ t) : OneLine (t ++ ['\r']) := by
  intro a b hab
  have : '\n' ∈ t ++ ['\r'] := by rw [hab]; simp
  simp only [List.mem_append, List.mem_singleton] at this
  rcases this with h' | h'
  · exact h h'
  · exact absurd h' (by decide)

example : ¬ Tests.text Tests.exExt.flt (.arr ([['a'], ['b', 'c']].map .str)) =
    Tests.text Tests.exExt.flt (.arr ([['a', 'b'], ['c']].map .str)) := by
  rw [array_text_inj_partial _ _ _ (by simp) (by simp)]
  · decide
  · intro t ht
    simp only [List.cons_append, List.nil_append, List.mem_cons, List.not_mem_nil, or_false] at ht
    rcases ht with rfl | rfl | rfl | rfl <;> exact ⟨by simp, oneLine_chars (by decide)⟩

/-- **Negation of C106.** An empty item at the front is not there, one in the middle is. -/
theorem leading_empty_lost (A : Flt F) :
    Tests.text A (.arr [.str [], .str ['a']]) = ['a'] ∧ Tests.text A (.arr [.str ['a'], .str [], .str ['b']]) =
      ['a', '\r', '\n', '\r', '\n', 'b'] ∧ Tests.text A (.arr [.str [], .str []]) = [] := ⟨rfl, rfl, rfl⟩

/-- **Negation of C106.** What is in arrays within an array does not appear in its text, while it does if texts are
joined in expressions; and lines end differently there. -/
theorem nested_lost (A : Flt F) :
    Tests.text A (.arr [.arr [.str ['a']], .str ['b']]) = ['b'] ∧
      Val.show A (.arr [.arr [.str ['a']], .str ['b']]) = ['a', '\n', 'b'] := ⟨rfl, rfl⟩

/-- **Negation of C106.** An item of two lines looks like two items. -/
theorem line_break_splits (A : Flt F) :
    Tests.text A (.arr [.str ['a', '\r', '\n', 'b']]) = Tests.text A (.arr [.str ['a'], .str ['b']]) := rfl

/-! ## The number a text stands for (C107) -/

/-- How the conversions treat texts: `i64` has no decimal point, and what it prints it reads. -/
structure Numerals (A : Flt F) : Prop where
  no_point : ∀ s n, A.parseInt s = some n → '.' ∉ s
  read : ∀ n, Expr.i64Min ≤ n → n ≤ Expr.i64Max → A.parseInt (A.showInt n) = some n
  nonempty : ∀ n, A.showInt n ≠ []

/-- `str::parse::<i64>` of the standard library: a sign, at least one digit, no overflow. -/
def readI64 (v : List Char) : Option Int :=
  match v with
  | '+' :: ds => if ds = [] then none else (Hvar.digits 0 ds).bind fun n => if n < 2 ^ 63 then some (n : Int) else none
  | '-' :: ds => if ds = [] then none else (Hvar.digits 0 ds).bind fun n => if n ≤ 2 ^ 63 then some (-(n : Int)) else none
  | ds => if ds = [] then none else (Hvar.digits 0 ds).bind fun n => if n < 2 ^ 63 then some (n : Int) else none

theorem digits_append (acc : Nat) (s t : List Char) :
    Hvar.digits acc (s ++ t) = (Hvar.digits acc s).bind fun n => Hvar.digits n t := by
  induction s generalizing acc with
  | nil => rfl
  | cons c s ih =>
    simp only [List.cons_append, Hvar.digits]
    split
    · exact ih _
    · rfl

theorem digits_digit (acc n : Nat) : Hvar.digits acc [Tests.digit n] = some (acc * 10 + n % 10) := by
  have h : n % 10 < 10 := by omega
  unfold Tests.digit
  generalize n % 10 = m at h
  have : ('0' ≤ Char.ofNat (48 + m) ∧ Char.ofNat (48 + m) ≤ '9') ∧ (Char.ofNat (48 + m)).toNat = 48 + m := by
    have : m = 0 ∨ m = 1 ∨ m = 2 ∨ m = 3 ∨ m = 4 ∨ m = 5 ∨ m = 6 ∨ m = 7 ∨ m = 8 ∨ m = 9 := by omega
    rcases this with rfl | rfl | rfl | rfl | rfl | rfl | rfl | rfl | rfl | rfl <;> decide
  simp only [Hvar.digits, if_pos this.1, this.2]
  congr 1; omega

theorem digits_decimal (n : Nat) : Hvar.digits 0 (Tests.decimal n) = some n := by
  induction n using Nat.strong_induction_on with
  | _ n ih =>
    unfold Tests.decimal
    split
    · rename_i h
      rw [digits_digit]; congr 1; omega
    · rename_i h
      rw [digits_append, ih (n / 10) (by omega), Option.bind_some, digits_digit]
      congr 1; omega

theorem digits_no_point {acc n : Nat} {s : List Char} (h : Hvar.digits acc s = some n) : '.' ∉ s := by
  induction s generalizing acc with
  | nil => simp
  | cons c s ih =>
    simp only [Hvar.digits] at h
    split at h
    · rename_i hc
      simp only [List.mem_cons, not_or]
      refine ⟨?_, ih h⟩
      rintro rfl
      exact absurd hc (by decide)
    · simp at h

theorem decimal_ne (n : Nat) : Tests.decimal n ≠ [] := by
  unfold Tests.decimal
  split <;> simp

theorem decimal_head (n : Nat) : ∃ m r, Tests.decimal n = Tests.digit m :: r := by
  induction n using Nat.strong_induction_on with
  | _ n ih =>
    unfold Tests.decimal
    split
    · exact ⟨n, [], rfl⟩
    · rename_i h
      obtain ⟨m, r, hr⟩ := ih (n / 10) (by omega)
      exact ⟨m, r ++ [Tests.digit n], by rw [hr]; rfl⟩

theorem digit_no_sign (n : Nat) : Tests.digit n ≠ '+' ∧ Tests.digit n ≠ '-' := by
  have h : n % 10 < 10 := by omega
  unfold Tests.digit
  generalize n % 10 = m at h
  have : m = 0 ∨ m = 1 ∨ m = 2 ∨ m = 3 ∨ m = 4 ∨ m = 5 ∨ m = 6 ∨ m = 7 ∨ m = 8 ∨ m = 9 := by omega
  rcases this with rfl | rfl | rfl | rfl | rfl | rfl | rfl | rfl | rfl | rfl <;> decide

theorem readI64_plain {ds : List Char} (h1 : ds.head? ≠ some '+') (h2 : ds.head? ≠ some '-') :
    readI64 ds = if ds = [] then none else (Hvar.digits 0 ds).bind fun n => if n < 2 ^ 63 then some (n : Int) else none := by
  unfold readI64
  split
  · simp at h1
  · simp at h2
  · rfl

/-- What is assumed of `i64` holds for the reading and writing of the standard library. -/
theorem numerals_std (A : Flt F) (h1 : A.parseInt = readI64) (h2 : A.showInt = Tests.signed) : Numerals A where
  no_point := by
    intro s n h
    rw [h1] at h
    unfold readI64 at h
    split at h
    all_goals
      split at h
      · simp at h
      · simp only [Option.bind_eq_some_iff] at h
        obtain ⟨m, hm, _⟩ := h
        have := digits_no_point hm
        simpa using this
  read := by
    intro n hn hm
    rw [h1, h2]
    simp only [Expr.i64Min, Expr.i64Max] at hn hm
    unfold Tests.signed
    split
    · rename_i hneg
      simp only [readI64, if_neg (decimal_ne _), digits_decimal, Option.bind_some]
      rw [if_pos (by omega)]
      congr 1; omega
    · rename_i hneg
      obtain ⟨m, r, hr⟩ := decimal_head n.natAbs
      have hs := digit_no_sign m
      rw [readI64_plain (by rw [hr]; simpa using hs.1) (by rw [hr]; simpa using hs.2), if_neg (decimal_ne _), digits_decimal,
        Option.bind_some, if_pos (by omega)]
      congr 1; omega
  nonempty := by
    intro n
    rw [h2]
    unfold Tests.signed
    split
    · simp
    · exact decimal_ne _

/-- Libraries for the examples. -/
def exLib : Tests.Ext Int :=
  { Tests.exExt with flt := { Tests.exExt.flt with
      parseInt := readI64, showInt := Tests.signed,
      parseFlt := fun s => if s = ['1', 'e', '3'] then some 1000 else if s = ['2', '.', '0'] then some 2 else none } }

/-- **C107.** Tests and expressions read a text as the same number, if it is an integer in the range of `i64` or a
decimal number with a point. -/
theorem same_number_partial (x : Tests.Ext F) (hA : Numerals x.flt) (s : List Char) (hs : s ≠ [])
    (h : (∃ n, x.flt.parseInt s = some n) ∨ ('.' ∈ s ∧ ∃ y, x.flt.parseFlt s = some y)) :
    Tests.number x (.str s) = Val.num x.flt (.str s) := by
  have he : s.isEmpty = false := by simpa using hs
  rcases h with ⟨n, hn⟩ | ⟨hp, y, hy⟩
  · have := hA.no_point s n hn
    simp [Tests.number, Tests.numberChecked, Val.num, he, hn, this]
  · have hn : x.flt.parseInt s = none := by
      cases h : x.flt.parseInt s with
      | none => rfl
      | some n => exact absurd hp (hA.no_point s n h)
    simp [Tests.number, Tests.numberChecked, Val.num, he, hn, hp, hy]

example : Tests.number exLib (.str ['-', '1', '2']) = Val.num exLib.flt (.str ['-', '1', '2']) :=
  same_number_partial exLib (numerals_std _ rfl rfl) _ (by simp) (.inl ⟨-12, by decide +kernel⟩)
example : Tests.number exLib (.str ['2', '.', '0']) = Val.num exLib.flt (.str ['2', '.', '0']) :=
  same_number_partial exLib (numerals_std _ rfl rfl) _ (by simp) (.inr ⟨by decide, 2, by decide +kernel⟩)

/-- **C107.** Values that are numbers are read as themselves, by tests and by expressions. -/
theorem number_itself (x : Tests.Ext F) (n : Int) (y : F) :
    Tests.number x (.int n) = .int n ∧ Val.num x.flt (.int n) = .int n ∧ Tests.number x (.flt y) = .flt y ∧ Val.num x.flt (.flt y) = .flt y :=
  ⟨rfl, rfl, rfl, rfl⟩

/-- **C107.** They differ on everything else: tests take it for infinity, expressions for 0 or, if it has no point but
is a decimal number, for that. -/
theorem other_number (x : Tests.Ext F) (s : List Char) :
    (x.flt.parseInt s = none → '.' ∉ s → Tests.number x (.str s) = .flt x.inf) ∧
    (x.flt.parseFlt s = none → '.' ∈ s → Tests.number x (.str s) = .flt x.inf) ∧
    (x.flt.parseInt s = none → x.flt.parseFlt s = none → Val.num x.flt (.str s) = .int 0) ∧
    (∀ y, s ≠ [] → x.flt.parseInt s = none → x.flt.parseFlt s = some y → Val.num x.flt (.str s) = .flt y) := by
  refine ⟨fun h hp => ?_, fun h hp => ?_, fun h h' => ?_, fun y hs h h' => ?_⟩
  · by_cases he : s.isEmpty <;> simp [Tests.number, Tests.numberChecked, he, h, hp]
  · by_cases he : s.isEmpty <;> simp [Tests.number, Tests.numberChecked, he, h, hp]
  · by_cases he : s.isEmpty <;> simp [Val.num, he, h, h']
  · have he : s.isEmpty = false := by simpa using hs
    simp [Val.num, he, h, h']

/-- **C107.** An integer written as text is read as that integer, in tests and in expressions. -/
theorem integer_read_back (x : Tests.Ext F) (hA : Numerals x.flt) (n : Int) (h1 : Expr.i64Min ≤ n)
    (h2 : n ≤ Expr.i64Max) :
    Tests.number x (.str (Tests.text x.flt (.int n))) = .int n ∧ Val.num x.flt (.str (Val.show x.flt (.int n))) = .int n := by
  have hr := hA.read n h1 h2
  have hn := hA.nonempty n
  have h := same_number_partial x hA (x.flt.showInt n) hn (.inl ⟨n, hr⟩)
  have he : (x.flt.showInt n).isEmpty = false := by simpa using hn
  have : Val.num x.flt (.str (x.flt.showInt n)) = .int n := by simp [Val.num, he, hr]
  exact ⟨by show Tests.number x (.str (x.flt.showInt n)) = _; rw [h, this], this⟩

/-- **Negation of C107.** `1e3` is a thousand in expressions and infinite in tests. -/
theorem exponent_differs (x : Tests.Ext F) (y : F) (h1 : x.flt.parseInt ['1', 'e', '3'] = none)
    (h2 : x.flt.parseFlt ['1', 'e', '3'] = some y) :
    Tests.number x (.str ['1', 'e', '3']) = .flt x.inf ∧ Val.num x.flt (.str ['1', 'e', '3']) = .flt y := by
  have h := other_number x ['1', 'e', '3']
  exact ⟨h.1 h1 (by decide), h.2.2.2 y (by simp) h1 h2⟩

example : Tests.number exLib (.str ['1', 'e', '3']) = .flt 1000000 ∧ Val.num exLib.flt (.str ['1', 'e', '3']) = .flt 1000 :=
  exponent_differs exLib 1000 (by decide +kernel) (by decide +kernel)

/-! ## Hashes (C108) -/

mutual
/-- Two values that are built alike: equal texts, equal integers, floating point numbers with the same bits, arrays
of such. -/
inductive Alike (bits : F → Nat) : Val F → Val F → Prop
  | str : Alike bits (.str s) (.str s)
  | int : Alike bits (.int n) (.int n)
  | flt : bits x = bits y → Alike bits (.flt x) (.flt y)
  | arr : AllAlike bits l k → Alike bits (.arr l) (.arr k)
inductive AllAlike (bits : F → Nat) : List (Val F) → List (Val F) → Prop
  | nil : AllAlike bits [] []
  | cons : Alike bits v w → AllAlike bits l k → AllAlike bits (v :: l) (w :: k)
end

mutual
/-- The kinds of two values are the same, down to the items of arrays: no text or integer is compared with a floating
point number. -/
inductive SameKind : Val F → Val F → Prop
  | str : SameKind (.str s) (.str t)
  | int : SameKind (.int n) (.int m)
  | flt : SameKind (.flt x) (.flt y)
  | arr : SameKinds l k → SameKind (.arr l) (.arr k)
inductive SameKinds : List (Val F) → List (Val F) → Prop
  | nil : SameKinds [] []
  | left : SameKinds [] (w :: k)
  | right : SameKinds (v :: l) []
  | cons : SameKind v w → SameKinds l k → SameKinds (v :: l) (w :: k)
end

mutual
theorem beq_alike {A : Flt F} {bits : F → Nat} (hb : ∀ x y, A.eq x y = true → bits x = bits y) :
    ∀ v w : Val F, SameKind v w → v.beq A w = true → Alike bits v w
  | .str s, .str t, _, h => by
    simp only [Val.beq, beq_iff_eq] at h; subst h; exact .str
  | .int s, .int t, _, h => by
    simp only [Val.beq, beq_iff_eq] at h; subst h; exact .int
  | .flt s, .flt t, _, h => by
    simp only [Val.beq] at h; exact .flt (hb _ _ h)
  | .arr l, .arr k, .arr hk, h => by
    simp only [Val.beq] at h; exact .arr (beqs_alike hb l k hk h)
theorem beqs_alike {A : Flt F} {bits : F → Nat} (hb : ∀ x y, A.eq x y = true → bits x = bits y) :
    ∀ l k : List (Val F), SameKinds l k → Val.beqs A l k = true → AllAlike bits l k
  | [], [], _, _ => .nil
  | [], _ :: _, _, h => by simp [Val.beqs] at h
  | _ :: _, [], _, h => by simp [Val.beqs] at h
  | v :: l, w :: k, .cons hv hk, h => by
    simp only [Val.beqs, Bool.and_eq_true] at h
    exact .cons (beq_alike hb v w hv h.1) (beqs_alike hb l k hk h.2)
end

mutual
theorem alike_hash {bits : F → Nat} {v w : Val F} : Alike bits v w → hash bits v = hash bits w
  | .str => rfl
  | .int => rfl
  | .flt h => by simp [hash, h]
  | .arr h => by simp [hash, (allAlike_hash h).1, (allAlike_hash h).2]
theorem allAlike_hash {bits : F → Nat} {l k : List (Val F)} :
    AllAlike bits l k → hashes bits l = hashes bits k ∧ l.length = k.length
  | .nil => ⟨rfl, rfl⟩
  | .cons hv hl => by simp [hashes, alike_hash hv, (allAlike_hash hl).1, (allAlike_hash hl).2]
end

/-- **C108.** Values of the same kind that are equal have the same hash, where equal floating point numbers have the
same bits. -/
theorem equal_hash_partial (A : Flt F) (bits : F → Nat) (hb : ∀ x y, A.eq x y = true → bits x = bits y) (v w : Val F)
    (hk : SameKind v w) (h : v.beq A w = true) : hash bits v = hash bits w :=
  alike_hash (beq_alike hb v w hk h)

/-- A value without floating point numbers, whose integers are in range. -/
inductive Whole : Val F → Prop
  | str : Whole (.str s)
  | int : Expr.i64Min ≤ n → n ≤ Expr.i64Max → Whole (.int n)
  | arr : (∀ v ∈ l, Whole v) → Whole (.arr l)

theorem i64Bits_inj {n m : Int} (h1 : Expr.i64Min ≤ n) (h2 : n ≤ Expr.i64Max) (h3 : Expr.i64Min ≤ m)
    (h4 : m ≤ Expr.i64Max) (h : i64Bits n = i64Bits m) : n = m := by
  simp only [Expr.i64Min, Expr.i64Max, i64Bits] at *
  omega

mutual
/-- The hash of a value is not the beginning of that of another of its kind. -/
theorem hash_prefix (bits : F → Nat) : ∀ (v w : Val F) (r s : List Word), SameKind v w → Whole v → Whole w →
    hash bits v ++ r = hash bits w ++ s → v = w ∧ r = s
  | .str a, .str b, r, s, _, _, _, h => by simpa [hash] using h
  | .int a, .int b, r, s, _, .int h1 h2, .int h3 h4, h => by
    simp only [hash, List.cons_append, List.nil_append, List.cons.injEq, Word.u64.injEq] at h
    exact ⟨by rw [i64Bits_inj h1 h2 h3 h4 h.1], h.2⟩
  | .arr l, .arr k, r, s, .arr hk, .arr hl, .arr hk', h => by
    simp only [hash, List.cons_append, List.cons.injEq, Word.u64.injEq] at h
    obtain ⟨rfl, h'⟩ := hashes_prefix bits l k r s hk hl hk' h.1 h.2
    exact ⟨rfl, h'⟩
theorem hashes_prefix (bits : F → Nat) : ∀ (l k : List (Val F)) (r s : List Word), SameKinds l k → (∀ v ∈ l, Whole v) →
    (∀ v ∈ k, Whole v) → l.length = k.length → hashes bits l ++ r = hashes bits k ++ s → l = k ∧ r = s
  | [], [], _, _, _, _, _, _, h => ⟨rfl, by simpa [hashes] using h⟩
  | [], _ :: _, _, _, _, _, _, h, _ => by simp at h
  | _ :: _, [], _, _, _, _, _, h, _ => by simp at h
  | v :: l, w :: k, r, s, .cons hv hk, h1, h2, h3, h => by
    simp only [hashes, List.append_assoc] at h
    obtain ⟨rfl, h'⟩ := hash_prefix bits v w _ _ hv (h1 v (by simp)) (h2 w (by simp)) h
    obtain ⟨rfl, h''⟩ := hashes_prefix bits l k r s hk (fun x hx => h1 x (by simp [hx])) (fun x hx => h2 x (by simp [hx]))
      (by simpa using h3) h'
    exact ⟨rfl, h''⟩
end

/-- **C108.** Nothing is left out of the hash: texts, integers and arrays of the same kinds with the same hash are the
same. -/
theorem hash_complete (bits : F → Nat) (v w : Val F) (hk : SameKind v w) (h1 : Whole v) (h2 : Whole w)
    (h : hash bits v = hash bits w) : v = w :=
  (hash_prefix bits v w [] [] hk h1 h2 (by simpa using h)).1

/-- **Negation of C108.** An integer and the equal floating point number, or a text and the number it spells, are
equal but have different hashes. -/
theorem equal_hash_differs (A : Flt F) (bits : F → Nat) (one : F) (h1 : A.eq (A.ofInt 1) one = true)
    (h2 : bits one = 4607182418800017408) (h3 : A.parseInt ['1'] = some 1) :
    (Val.int 1).beq A (.flt one) = true ∧ hash bits (Val.int 1) ≠ hash bits (Val.flt one) ∧
    (Val.str ['1']).beq A (.int 1) = true ∧ hash bits (Val.str ['1'] : Val F) ≠ hash bits (Val.int 1) := by
  refine ⟨by simp [Val.beq, h1], ?_, ?_, ?_⟩
  · simp [hash, h2, i64Bits]
  · simp [Val.beq, Val.num, h3]
  · simp [hash]

/-- **Negation of C108.** The two zeros are equal but have different hashes. -/
theorem zero_hash_differs (A : Flt F) (bits : F → Nat) (p n : F) (h1 : A.eq p n = true) (h2 : bits p = 0)
    (h3 : bits n = 9223372036854775808) : (Val.flt p).beq A (.flt n) = true ∧ hash bits (Val.flt p) ≠ hash bits (Val.flt n) := by
  refine ⟨by simp [Val.beq, h1], ?_⟩
  simp [hash, h2, h3]

/-- Bits for the examples, in which 1 is that of `f64` and the two zeros are 0 and 7. -/
def exBits (x : Int) : Nat := if x = 1 then 4607182418800017408 else if x = 7 then 9223372036854775808 else x.toNat

example : (Val.int 1).beq exLib.flt (.flt 1) = true ∧ hash exBits (Val.int 1) ≠ hash exBits (Val.flt 1) :=
  have h := equal_hash_differs exLib.flt exBits 1 (by decide +kernel) (by decide) (by decide +kernel)
  ⟨h.1, h.2.1⟩

example : (Val.flt 0).beq { exLib.flt with eq := fun _ _ => true } (.flt 7) = true ∧
    hash exBits (Val.flt 0) ≠ hash exBits (Val.flt 7) :=
  zero_hash_differs { exLib.flt with eq := fun _ _ => true } exBits 0 7 rfl (by decide) (by decide)

example : hash Int.toNat (.arr [.str ['a'], .int 3] : Val Int) = hash Int.toNat (.arr [.str ['a'], .int 3]) :=
  equal_hash_partial exLib.flt Int.toNat (fun x y h => by
    have : x = y := by simpa [exLib, Tests.exExt] using h
    rw [this]) _ _ (.arr (.cons .str (.cons .int .nil))) (by simp [Val.beq, Val.beqs])

example : hash Int.toNat (.arr [.str ['a'], .int 3] : Val Int) ≠ hash Int.toNat (.arr [.str ['a'], .int (-3)]) := by
  intro h
  have := hash_complete Int.toNat _ _ (.arr (.cons .str (.cons .int .nil)))
    (.arr (by intro v hv; simp at hv; rcases hv with rfl | rfl; exact .str; exact .int (by decide) (by decide)))
    (.arr (by intro v hv; simp at hv; rcases hv with rfl | rfl; exact .str; exact .int (by decide) (by decide))) h
  simp at this

end Sieve.Value
