import Verif.ExprOps

/-!
# Array access with an index that is no integer
-/

namespace Sieve.Expr

variable {F : Type}

/-- C67, access by a text or an array: a text that is an unsigned integer is that index, all other texts and all arrays are the index 0. -/
theorem array_access_text (A : Flt F) (l : List (Val F)) :
    (∀ s i, s ≠ [] → A.parseNat s = some i → ∀ v, l[i]? = some v → accessVal A (.arr l) (.str s) = v) ∧
    (∀ s i, s ≠ [] → A.parseNat s = some i → l.length ≤ i → accessVal A (.arr l) (.str s) = .str []) ∧
    (∀ s, s = [] ∨ A.parseNat s = none → ∀ v, l.head? = some v → accessVal A (.arr l) (.str s) = v) ∧
    ∀ k v, l.head? = some v → accessVal A (.arr l) (.arr k) = v := by
  refine ⟨fun s i hs hi v hv => ?_, fun s i hs hi hl => ?_, fun s hs v hv => ?_, fun k v hv => ?_⟩
  · simp [accessVal, Val.index, Val.items, hs, hi, hv]
  · simp [accessVal, Val.index, Val.items, hs, hi, List.getElem?_eq_none hl]
  · rw [List.head?_eq_getElem?] at hv
    have h0 : (Val.str s : Val F).index A = 0 := by
      simp only [Val.index]
      rcases hs with rfl | hs
      · rfl
      · rw [hs]
        split <;> rfl
    simp only [accessVal, h0, Val.items, hv]
  · rw [List.head?_eq_getElem?] at hv
    simp only [accessVal, Val.index, Val.items, hv]

/-- An index that is written as a text. -/
example (A : Flt F) (h : A.parseNat ['1'] = some 1) : accessVal A (.arr [.int 5, .int 6]) (.str ['1']) = .int 6 :=
  (array_access_text A _).1 _ _ (by simp) h _ rfl

/-- C67, access by a float: the index is its integer part. -/
theorem array_access_float (A : Flt F) (l : List (Val F)) (x : F) :
    (∀ v, l[A.toNat x]? = some v → accessVal A (.arr l) (.flt x) = v) ∧
    (l.length ≤ A.toNat x → accessVal A (.arr l) (.flt x) = .str []) := by
  refine ⟨fun v hv => ?_, fun hl => ?_⟩
  · simp [accessVal, Val.index, Val.items, hv]
  · simp [accessVal, Val.index, Val.items, List.getElem?_eq_none hl]

end Sieve.Expr
