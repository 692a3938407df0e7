import Verif.SetProps

/-!
# C114: the modifiers that change letters and quote regular expressions
-/

namespace Sieve.SetVar
open Sieve

/-! ## Changing letters -/

/-- What the modifiers that change letters are to make of a text: `:lower` and `:upper` change all of it, `:lowerfirst` and `:upperfirst`
its first character. -/
def changed (x : Ext) : Modifier → List Char → Option (List Char)
  | .lower, s => some (x.lowerStr s)
  | .upper, s => some (x.upperStr s)
  | .lowerFirst, [] | .upperFirst, [] => some []
  | .lowerFirst, c :: s => some (x.lowerChar c ++ s)
  | .upperFirst, c :: s => some (x.upperChar c ++ s)
  | _, _ => none

theorem mapFirstGo_false (f : Char → List Char) (max : Nat) (cs acc : List Char) : mapFirstGo f max false acc cs = truncGo max acc cs := by
  induction cs generalizing acc with
  | nil => rfl
  | cons c cs ih =>
    simp only [mapFirstGo, truncGo, Bool.false_eq_true, if_false, ih]
    rw [Nat.add_comm]

theorem truncGo_long (max : Nat) (acc cs : List Char) (h : max < byteLen acc) : truncGo max acc cs = acc := by
  cases cs with
  | nil => rfl
  | cons c cs => rw [truncGo, if_neg (by omega)]

/-- A text cut in one way or the other is cut to the longest prefix. -/
theorem stored_trunc (max : Nat) (acc cs : List Char) : ∃ r, stored max (.str (truncGo max acc cs)) = .str r ∧ LongestPrefix max (acc ++ cs) r := by
  by_cases h : byteLen acc ≤ max
  · have := truncGo_spec max acc cs h
    obtain ⟨r, h1, -, h3⟩ := stored_string max (truncGo max acc cs)
    exact ⟨r, h1, by rw [h3 this.2.1]; exact this⟩
  · rw [truncGo_long max acc cs (by omega)]
    obtain ⟨r, h1, ⟨h2, h3, h4⟩, -⟩ := stored_string max acc
    refine ⟨r, h1, h2.trans (List.prefix_append _ _), h3, fun q hq hle => h4 q ?_ hle⟩
    rcases prefix_total hq (List.prefix_append acc cs) with h' | h'
    · exact h'
    · have := byteLen_prefix h'
      omega

theorem utf8Size_le (c : Char) : c.utf8Size ≤ 4 := Char.utf8Size_le_four c

theorem stored_first (f : Char → List Char) (max : Nat) (hm : 4 ≤ max) (c : Char) (cs : List Char) :
    ∃ r, stored max (.str (mapFirstGo f max true [] (c :: cs))) = .str r ∧ LongestPrefix max (f c ++ cs) r := by
  have := utf8Size_le c
  rw [mapFirstGo, if_pos (by simp; omega), mapFirstGo_false]
  exact stored_trunc max _ cs

theorem applyAll_last (x : Ext) (max : Nat) (m : Modifier) : ∀ (ms : List Modifier) (v : Variable),
    applyAll x max (ms ++ [m]) v = .str (m.apply x max (applyAll x max ms v).text)
  | [], _ => rfl
  | _ :: ms, _ => applyAll_last x max m ms _

/-- **C114** The last modifier of `set`, if it changes letters, is applied to the value left by those before it, and the variable holds the
longest prefix of the result that fits. -/
theorem set_changed (x : Ext) (max : Nat) (hm : 4 ≤ max) (ms : List Modifier) (m : Modifier) (v : Variable) {t : List Char}
    (h : changed x m (applyAll x max ms v).text = some t) :
    ∃ r, execSet x max (ms ++ [m]) v = .str r ∧ LongestPrefix max t r ∧ (byteLen t ≤ max → r = t) := by
  suffices hs : ∃ r, stored max (.str (m.apply x max (applyAll x max ms v).text)) = .str r ∧ LongestPrefix max t r by
    obtain ⟨r, h1, h2⟩ := hs
    refine ⟨r, by rw [execSet, applyAll_last, h1], h2, fun hle => ?_⟩
    exact List.IsPrefix.eq_of_length_le h2.1 (h2.2.2 t List.prefix_rfl hle).length_le
  generalize (applyAll x max ms v).text = s at h
  cases m <;> simp only [changed, reduceCtorEq, Option.some.injEq] at h
  · obtain ⟨r, h1, h2, -⟩ := stored_string max (x.lowerStr s)
    exact ⟨r, h1, h ▸ h2⟩
  · obtain ⟨r, h1, h2, -⟩ := stored_string max (x.upperStr s)
    exact ⟨r, h1, h ▸ h2⟩
  · cases s with
    | nil =>
      simp only [changed, Option.some.injEq] at h
      subst h
      exact ⟨[], rfl, List.prefix_rfl, by simp, fun r hr _ => hr⟩
    | cons c cs =>
      simp only [changed, Option.some.injEq] at h
      subst h
      exact stored_first x.lowerChar max hm c cs
  · cases s with
    | nil =>
      simp only [changed, Option.some.injEq] at h
      subst h
      exact ⟨[], rfl, List.prefix_rfl, by simp, fun r hr _ => hr⟩
    | cons c cs =>
      simp only [changed, Option.some.injEq] at h
      subst h
      exact stored_first x.upperChar max hm c cs

/-- Letters of the alphabet. -/
def someExt : Ext where
  lowerStr := fun s => s.map Char.toLower
  upperStr := fun s => s.map Char.toUpper
  lowerChar := fun c => [c.toLower]
  upperChar := fun c => [c.toUpper]
  replace := fun s _ _ => s

example : changed someExt .upperFirst (applyAll someExt 5 [.lower] (.str ['j', 'O', 'H', 'N'])).text = some ['J', 'o', 'h', 'n'] := by decide
example : execSet someExt 5 [.lower, .upperFirst] (.str ['j', 'O', 'H', 'N']) = .str ['J', 'o', 'h', 'n'] := by rfl
example : execSet someExt 4 [.upperFirst] (.str ['h', 'e', 'l', 'l', 'o']) = .str ['H', 'e', 'l', 'l'] := by rfl

/-! ## Quoting regular expressions -/

/-- The characters with a meaning in a regular expression (POSIX extended regular expressions, and those of Perl). -/
def regexMeta : List Char := ['.', '^', '$', '*', '+', '?', '(', ')', '[', ']', '{', '}', '|', '\\']

/-- The regular expression `q` is nothing but the text `s`: characters without a meaning, and characters that are no letters or digits
(nor `<`, `>`, which have a meaning after a backslash) after a backslash. -/
inductive Literal : List Char → List Char → Prop where
  | nil : Literal [] []
  | plain {c q s} : c ∉ regexMeta → Literal q s → Literal (c :: q) (c :: s)
  | escaped {c q s} : c.isAlphanum = false → c ≠ '<' → c ≠ '>' → c.toNat < 128 → Literal q s → Literal ('\\' :: c :: q) (c :: s)

theorem Literal.append {q s q' s'} (h : Literal q s) (h' : Literal q' s') : Literal (q ++ q') (s ++ s') := by
  induction h with
  | nil => exact h'
  | plain hc _ ih => exact .plain hc ih
  | escaped h1 h2 h3 h4 _ ih => exact .escaped h1 h2 h3 h4 ih

/-- A regular expression is the text of at most one text. -/
theorem Literal.unique {q s s'} (h : Literal q s) (h' : Literal q s') : s = s' := by
  induction h generalizing s' with
  | nil => cases h'; rfl
  | @plain c q s hc _ ih =>
    cases h' with
    | plain _ h' => rw [ih h']
    | escaped => exact absurd (by decide) hc
  | @escaped c q s _ _ _ _ _ ih =>
    cases h' with
    | plain hc _ => exact absurd (by decide) hc
    | escaped _ _ _ _ h' => rw [ih h']

/-- A backslash before each of the characters `special`. -/
def quotedBy (special : List Char) (s : List Char) : List Char := s.flatMap fun c => if c ∈ special then ['\\', c] else [c]

theorem quotedBy_append (special a b : List Char) : quotedBy special (a ++ b) = quotedBy special a ++ quotedBy special b := by
  simp [quotedBy]

theorem quotedBy_literal (s : List Char) : Literal (quotedBy regexSpecials s) s := by
  induction s with
  | nil => exact .nil
  | cons c s ih =>
    simp only [quotedBy, List.flatMap_cons] at ih ⊢
    split
    · rename_i hc
      have : ∀ c ∈ regexSpecials, c.isAlphanum = false ∧ c ≠ '<' ∧ c ≠ '>' ∧ c.toNat < 128 := by decide
      obtain ⟨h1, h2, h3, h4⟩ := this c hc
      exact .escaped h1 h2 h3 h4 ih
    · rename_i hc
      have : ∀ c ∈ regexMeta, c ∈ regexSpecials := by decide
      exact .plain (fun h => hc (this c h)) ih

theorem quoteGo_by (special : List Char) (hs : ∀ c ∈ special, c.utf8Size = 1) (max : Nat) (done cs : List Char)
    (hd : byteLen (quotedBy special done) ≤ max) :
    ∃ pre, pre <+: done ++ cs ∧ quoteGo special max (quotedBy special done) cs = quotedBy special pre ∧
      byteLen (quotedBy special pre) ≤ max ∧ ∀ r, r <+: done ++ cs → byteLen (quotedBy special r) ≤ max → r <+: pre := by
  have hmono : ∀ {a b : List Char}, a <+: b → byteLen (quotedBy special a) ≤ byteLen (quotedBy special b) := by
    rintro a _ ⟨t, rfl⟩
    simp [quotedBy_append]
  induction cs generalizing done with
  | nil => exact ⟨done, by simp, rfl, hd, fun r h _ => by simpa using h⟩
  | cons c cs ih =>
    have hb : '\\'.utf8Size = 1 := by decide
    have hsnoc : byteLen (quotedBy special (done ++ [c])) = byteLen (quotedBy special done) + (if c ∈ special then 2 else c.utf8Size) := by
      rw [quotedBy_append, byteLen_append]
      simp only [quotedBy, List.flatMap_cons, List.flatMap_nil, List.append_nil]
      split
      · rename_i h
        simp only [byteLen_cons, byteLen_nil, hs c h, hb]
      · simp
    have hstop : max < byteLen (quotedBy special (done ++ [c])) →
        ∀ r, r <+: done ++ c :: cs → byteLen (quotedBy special r) ≤ max → r <+: done := by
      intro hbig r hr hle
      rcases prefix_total hr (⟨cs, by simp⟩ : done ++ [c] <+: done ++ c :: cs) with h | h
      · rcases List.prefix_concat_iff.mp h with h | h
        · subst h; omega
        · exact h
      · have := hmono h
        omega
    have hih := ih (done ++ [c])
    simp only [List.append_assoc, List.cons_append, List.nil_append] at hih
    simp only [quoteGo]
    by_cases hc : c ∈ special
    · rw [if_pos hc] at hsnoc
      rw [if_pos hc, hs c hc]
      split
      · have e : quotedBy special done ++ ['\\', c] = quotedBy special (done ++ [c]) := by
          rw [quotedBy_append]; simp [quotedBy, hc]
        rw [e]
        exact hih (by omega)
      · exact ⟨done, List.prefix_append .., rfl, hd, hstop (by omega)⟩
    · rw [if_neg hc] at hsnoc
      rw [if_neg hc]
      split
      · have e : quotedBy special done ++ [c] = quotedBy special (done ++ [c]) := by
          rw [quotedBy_append]; simp [quotedBy, hc]
        rw [e]
        exact hih (by omega)
      · exact ⟨done, List.prefix_append .., rfl, hd, hstop (by omega)⟩

/-- **C114** What `set :quoteregex` stores is, as a regular expression, the text of a prefix of the value it was given, all of it if the
quoted text fits; quoting at most doubles the length. -/
theorem set_quoteregex (x : Ext) (max : Nat) (ms : List Modifier) (v : Variable) :
    let given := (applyAll x max ms v).text
    ∃ out pre, execSet x max (ms ++ [.quoteRegex]) v = .str out ∧ byteLen out ≤ max ∧ pre <+: given ∧ Literal out pre ∧
      (2 * byteLen given ≤ max → pre = given) := by
  intro given
  have h1 : ∀ c ∈ regexSpecials, c.utf8Size = 1 := by decide
  have hlen : ∀ s, byteLen (Modifier.quoteRegex.apply x max s) ≤ max := by
    intro s
    obtain ⟨pre, -, h, h', -⟩ := quoteGo_by regexSpecials h1 max [] s (by simp [quotedBy])
    show byteLen (quoteGo regexSpecials max (quotedBy regexSpecials []) s) ≤ max
    rw [h]; exact h'
  obtain ⟨pre, h2, h3, h4, h5⟩ := quoteGo_by regexSpecials h1 max [] given (by simp [quotedBy])
  refine ⟨quotedBy regexSpecials pre, pre, ?_, h4, by simpa using h2, quotedBy_literal pre, fun hfit => ?_⟩
  · rw [execSet_last x max ms .quoteRegex v hlen]
    exact congrArg _ h3
  · have hdouble : ∀ s, byteLen (quotedBy regexSpecials s) ≤ 2 * byteLen s := by
      intro s
      induction s with
      | nil => simp [quotedBy]
      | cons c s ih =>
        have hb : '\\'.utf8Size = 1 := by decide
        rw [show c :: s = [c] ++ s from rfl, quotedBy_append, byteLen_append, byteLen_append]
        have : byteLen (quotedBy regexSpecials [c]) ≤ 2 * byteLen [c] := by
          simp only [quotedBy, List.flatMap_cons, List.flatMap_nil, List.append_nil]
          split
          · rename_i hc
            simp [h1 c hc, hb]
          · simp; omega
        omega
    have := h5 given (by simp) (Nat.le_trans (hdouble given) hfit)
    exact List.IsPrefix.eq_of_length_le (by simpa using h2) this.length_le

example : execSet someExt 20 [.quoteRegex] (.str ['a', '.', '(', 'b']) = .str ['a', '\\', '.', '\\', '(', 'b'] := by rfl
example : Literal ['a', '\\', '.', '\\', '(', 'b'] ['a', '.', '(', 'b'] := quotedBy_literal ['a', '.', '(', 'b']

end Sieve.SetVar
