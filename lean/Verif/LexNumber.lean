import Verif.LexProps

/-!
# C115: strings that are numbers

A string constant whose text is a number is kept as this number; the interpreter prints it again where the text is needed.
-/

namespace Sieve.Lex

variable {W F : Type}

/-- How numbers are written (`i64::to_string`, `f64::to_string`): integers with digits and a sign; other numbers, if there is a point in
them, with one point, digits and a sign. -/
structure Writes (x : Ext W F) : Prop where
  int : ∀ n, ∀ b ∈ x.showInt n, digit b = true ∨ b = 45
  intDigit : ∀ n, ∃ b ∈ x.showInt n, digit b = true
  flt : ∀ f, 46 ∈ x.showFlt f → (∀ b ∈ x.showFlt f, digit b = true ∨ b = 45 ∨ b = 46) ∧ (x.showFlt f).count 46 = 1 ∧
    ∃ b ∈ x.showFlt f, digit b = true
  fltLine : ∀ f, x.showFlt f ≠ [] ∧ 10 ∉ x.showFlt f

/-! ## What the lexer has noticed -/

/-- `StringType` after one more character. -/
def noticed (l : UInt8) (t : StrType) (ch : UInt8) : StrType :=
  if ch = 10 then { t with hasOther := true }
  else if ch = 123 && (l = 36 || l = 37) then { t with maybeVariable := true }
  else if ch = 92 then t
  else if isDigit ch then { t with hasDigits := true }
  else if ch = 46 then (if t.hasDots then { t with hasOther := true } else { t with hasDots := true })
  else { t with hasOther := t.hasOther || ch ≠ 45 }

/-- `StringType` after a text. -/
def scan : UInt8 → StrType → List UInt8 → StrType
  | _, t, [] => t
  | l, t, c :: cs => scan c (noticed l t c) cs

theorem step_noticed (x : Ext W F) (b : List UInt8) (g : Bool) (l : UInt8) (t : StrType) (ch : UInt8)
    (rest : List UInt8) (h34 : ch ≠ 34 ∨ l = 92) (h92 : ch ≠ 92) (hn : l = 92 → ch ≠ 110 ∧ ch ≠ 114 ∧ ch ≠ 116) :
    step x ⟨b, g, l, .quoted t⟩ ch rest = .go ⟨b ++ [ch], g, ch, .quoted (noticed l t ch)⟩ 0 [] := by
  have e : step x ⟨b, g, l, .quoted t⟩ ch rest = stepQuoted x ⟨b, g, ch, .quoted t⟩ l t ch := rfl
  rw [e]
  unfold stepQuoted noticed
  have hu : unescape l ch = ch := by
    unfold unescape
    by_cases hl : l = 92
    · have := hn hl
      simp [hl, this]
    · simp [hl]
  rw [if_neg (by simp; intro h; rcases h34 with h' | h' <;> [exact absurd h h'; exact h']), hu]
  by_cases h10 : ch = 10
  · subst h10; rfl
  rw [if_neg h10, if_neg h10]
  by_cases hv : (ch = 123 && (l = 36 || l = 37)) = true
  · rw [if_pos hv, if_pos hv]; rfl
  rw [if_neg hv, if_neg hv, if_neg h92, if_neg h92]
  by_cases hd : isDigit ch = true
  · rw [if_pos hd, if_pos hd]; rfl
  rw [if_neg hd, if_neg hd]
  by_cases hp : ch = 46
  · rw [if_pos hp, if_pos hp]; rfl
  rw [if_neg hp, if_neg hp]
  rfl

theorem noticed_backslash (l : UInt8) (t : StrType) : noticed l t 92 = t := by simp [noticed]
theorem noticed_quote (l : UInt8) (t : StrType) : noticed l t 34 = { t with hasOther := true } := by
  simp [noticed, isDigit]

theorem lex_scan (x : Ext W F) : ∀ (c b : List UInt8) (g : Bool) (l : UInt8) (t : StrType) (rest : List UInt8),
    PlainFrom l c → ∃ l', l' ≠ 92 ∧
      lex x ⟨b, g, l, .quoted t⟩ (escape c ++ rest) = lex x ⟨b ++ c, g, l', .quoted (scan l t c)⟩ rest
  | [], b, g, l, t, rest, hp => ⟨l, hp, by simp [escape, scan]⟩
  | c :: cs, b, g, l, t, rest, hp => by
    by_cases h92 : c = 92
    · subst h92
      have hl : l ≠ 92 := fun h => (hp.1 h).2.1 rfl
      obtain ⟨l', h1, h3⟩ := lex_scan x cs (b ++ [92]) g 92 t rest hp.2
      refine ⟨l', h1, ?_⟩
      simp only [escape, or_true, if_true, List.cons_append]
      rw [lex_go x (quoted_backslash x b g l t _)]
      simp only [hl, if_false, List.drop_zero, List.nil_append]
      rw [lex_go x (quoted_backslash x b g 92 t _)]
      simp only [if_true, List.drop_zero, List.nil_append]
      rw [h3]; simp [scan, noticed_backslash]
    · by_cases h34 : c = 34
      · subst h34
        have hl : l ≠ 92 := fun h => (hp.1 h).1 rfl
        have k2 := step_noticed x b g 92 t 34 (escape cs ++ rest) (.inr rfl) (by decide) (by decide)
        obtain ⟨l', h1, h3⟩ := lex_scan x cs (b ++ [34]) g 34 (noticed 92 t 34) rest hp.2
        refine ⟨l', h1, ?_⟩
        simp only [escape, true_or, if_true, List.cons_append]
        rw [lex_go x (quoted_backslash x b g l t _)]
        simp only [hl, if_false, List.drop_zero, List.nil_append]
        rw [lex_go x k2]
        simp only [List.drop_zero, List.nil_append]
        rw [h3]; simp [scan, noticed_quote]
      · have k2 := step_noticed x b g l t c (escape cs ++ rest) (.inl h34) h92 (fun h => (hp.1 h).2.2)
        obtain ⟨l', h1, h3⟩ := lex_scan x cs (b ++ [c]) g c (noticed l t c) rest hp.2
        refine ⟨l', h1, ?_⟩
        simp only [escape, h34, h92, or_self, if_false, List.cons_append]
        rw [lex_go x k2]
        simp only [List.drop_zero, List.nil_append]
        rw [h3]; simp [scan]

theorem noticed_dots (l : UInt8) (t : StrType) (ch : UInt8) : (noticed l t ch).hasDots = (t.hasDots || ch = 46) := by
  unfold noticed
  by_cases h : ch = 46
  · subst h
    simp [isDigit]
    split <;> simp_all
  · simp only [h, if_false, decide_false, Bool.or_false]
    repeat' split
    all_goals rfl

theorem scan_dots : ∀ (c : List UInt8) (l : UInt8) (t : StrType), (scan l t c).hasDots = (t.hasDots || c.contains 46)
  | [], _, _ => by simp [scan]
  | a :: c, l, t => by
    rw [scan, scan_dots c, noticed_dots, List.contains_cons, Bool.or_assoc]
    congr 2
    by_cases h : a = 46
    · subst h; rfl
    · simp [h, Ne.symm h]

/-- The characters of a number. -/
def NumChar (b : UInt8) : Prop := digit b = true ∨ b = 45 ∨ b = 46

theorem noticed_num (l : UInt8) (t : StrType) {ch : UInt8} (h : NumChar ch) :
    (noticed l t ch).maybeVariable = t.maybeVariable ∧ (noticed l t ch).hasDigits = (t.hasDigits || isDigit ch) ∧
    (noticed l t ch).hasOther = (t.hasOther || (t.hasDots && ch = 46)) := by
  rcases h with h | rfl | rfl
  · rw [digit_eq] at h
    have h1 : ch ≠ 10 ∧ ch ≠ 123 ∧ ch ≠ 92 ∧ ch ≠ 46 := by
      refine ⟨?_, ?_, ?_, ?_⟩ <;> rintro rfl <;> simp [isDigit] at h
    simp [noticed, h, h1]
  · simp [noticed, isDigit]
  · simp only [noticed, isDigit]
    cases hd : t.hasDots <;> simp [hd]

theorem scan_num : ∀ (c : List UInt8) (l : UInt8) (t : StrType), (∀ b ∈ c, NumChar b) →
    (scan l t c).maybeVariable = t.maybeVariable ∧ (scan l t c).hasDigits = (t.hasDigits || c.any isDigit) ∧
    (c.count 46 + (if t.hasDots then 1 else 0) ≤ 1 → (scan l t c).hasOther = t.hasOther)
  | [], _, t, _ => by simp [scan]
  | a :: c, l, t, h => by
    obtain ⟨h1, h2, h3⟩ := noticed_num l t (h a (by simp))
    obtain ⟨k1, k2, k3⟩ := scan_num c a (noticed l t a) (fun b hb => h b (by simp [hb]))
    refine ⟨by rw [scan, k1, h1], by rw [scan, k2, h2]; simp [Bool.or_assoc], fun hc => ?_⟩
    rw [scan, k3, h3]
    · by_cases ha : a = 46
      · subst ha
        have : t.hasDots = false := by
          by_contra hd
          simp at hd
          simp [hd] at hc
        simp [this]
      · simp [ha]
    · rw [noticed_dots]
      by_cases ha : a = 46
      · subst ha
        cases hd : t.hasDots <;> simp [hd] at hc ⊢ <;> omega
      · simp [ha, List.count_cons] at hc ⊢
        exact hc

/-! ## Quoted strings -/

theorem stringToken_int (x : Ext W F) (c : List UInt8) (t : StrType) (n : Int) :
    stringToken x c t = .stringNumber (.int n) ↔ t.maybeVariable = false ∧ t.hasOther = false ∧ t.hasDigits = true ∧ t.hasDots = false ∧
      x.parseInt c = some n ∧ x.showInt n = c := by
  obtain ⟨a, b, d, e⟩ := t
  unfold stringToken
  cases a <;> cases b <;> cases d <;> cases e <;> simp
  · cases h : x.parseInt c with
    | none => simp
    | some m =>
      simp only [Option.some.injEq]
      split
      · rename_i hm
        simp only [Token.stringNumber.injEq, Num.int.injEq]
        constructor
        · rintro rfl; exact ⟨rfl, hm⟩
        · exact fun h => h.1
      · rename_i hm
        simp only [reduceCtorEq, false_iff, not_and]
        rintro rfl; exact hm
  · split <;> [skip; simp]
    split <;> simp

theorem stringToken_flt (x : Ext W F) (c : List UInt8) (t : StrType) (f : F) :
    stringToken x c t = .stringNumber (.flt f) ↔ t.maybeVariable = false ∧ t.hasOther = false ∧ t.hasDigits = true ∧ t.hasDots = true ∧
      x.parseFlt c = some f ∧ x.showFlt f = c := by
  obtain ⟨a, b, d, e⟩ := t
  unfold stringToken
  cases a <;> cases b <;> cases d <;> cases e <;> simp
  · split <;> [skip; simp]
    split <;> simp
  · cases h : x.parseFlt c with
    | none => simp
    | some m =>
      simp only [Option.some.injEq]
      split
      · rename_i hm
        simp only [Token.stringNumber.injEq, Num.flt.injEq]
        constructor
        · rintro rfl; exact ⟨rfl, hm⟩
        · exact fun h => h.1
      · rename_i hm
        simp only [reduceCtorEq, false_iff, not_and]
        rintro rfl; exact hm

/-- **C115** A quoted string is a number exactly if its content is the text of that number, and then it is this number; otherwise it is the
text.  (`Plain`: as for C33.  The full claim is for all contents, also those with the backslashes for which C33 fails.) -/
theorem quoted_number_partial (x : Ext W F) (hx : Writes x) (s : St) (hs : s.mode = .none) (c rest : List UInt8) (hc : Plain c)
    (hl : c.length < x.maxString) :
    ∃ t : Token W F, lex x s (34 :: (escape c ++ 34 :: rest)) = (current x s ++ t :: (lex x (reset s) rest).1, (lex x (reset s) rest).2) ∧
      (∀ n, t = .stringNumber (.int n) ↔ x.parseInt c = some n ∧ x.showInt n = c) ∧
      (∀ f, t = .stringNumber (.flt f) ↔ 46 ∈ c ∧ x.parseFlt c = some f ∧ x.showFlt f = c) ∧
      (t = .stringVar c ↔ HasVar c) ∧ ((∀ n, t ≠ .stringNumber n) → t = .string c ∨ t = .stringVar c) := by
  obtain ⟨l', h1, h3⟩ := lex_scan x c (reset s).buf (reset s).isTag 34 {} (34 :: rest) (plainFrom_plain c hc)
  have hlex : lex x s (34 :: (escape c ++ 34 :: rest))
      = (current x s ++ stringToken x c (scan 34 {} c) :: (lex x (reset s) rest).1, (lex x (reset s) rest).2) := by
    rw [quoted_start x s hs, h3, reset_buf, List.nil_append]
    rw [lex_go x (quoted_end x c _ l' _ rest h1 hl)]
    simp only [List.drop_zero, reset_eta x s hs, List.cons_append, List.nil_append]
  have hdot : (scan 34 {} c).hasDots = c.contains 46 := by rw [scan_dots]; rfl
  refine ⟨_, hlex, ?_, ?_, ?_, ?_⟩
  · intro n
    rw [stringToken_int]
    refine ⟨fun h => h.2.2.2.2, fun h => ?_⟩
    have hc : ∀ b ∈ c, NumChar b := fun b hb => by
      rw [← h.2] at hb
      rcases hx.int n b hb with k | k
      · exact .inl k
      · exact .inr (.inl k)
    have hn : 46 ∉ c := fun hb => by
      rw [← h.2] at hb
      rcases hx.int n 46 hb with k | k
      · exact absurd k (by decide)
      · exact absurd k (by decide)
    obtain ⟨k1, k2, k3⟩ := scan_num c 34 {} hc
    refine ⟨k1, k3 ?_, ?_, ?_, h.1, h.2⟩
    · rw [List.count_eq_zero_of_not_mem hn]; decide
    · rw [k2]
      obtain ⟨b, hb, hb'⟩ := hx.intDigit n
      rw [h.2] at hb
      exact List.any_eq_true.2 ⟨b, hb, hb'⟩
    · rw [hdot]; simpa using hn
  · intro f
    rw [stringToken_flt]
    refine ⟨fun h => ⟨?_, h.2.2.2.2⟩, fun h => ?_⟩
    · have := h.2.2.2.1
      rw [hdot] at this
      simpa using this
    · obtain ⟨w1, w2, b, hb, hb'⟩ := hx.flt f (by rw [h.2.2]; exact h.1)
      rw [h.2.2] at w1 w2 hb
      obtain ⟨k1, k2, k3⟩ := scan_num c 34 {} w1
      refine ⟨k1, k3 (by rw [w2]; decide), ?_, ?_, h.2.1, h.2.2⟩
      · rw [k2]
        exact List.any_eq_true.2 ⟨b, hb, hb'⟩
      · rw [hdot]; simpa using h.1
  · obtain ⟨h, -⟩ := quoted_string_partial x s hs c rest hc
    obtain ⟨t, t1, t2, t3⟩ := h hl
    rw [hlex] at t3
    have : stringToken x c (scan 34 {} c) = t := by
      have := congrArg Prod.fst t3
      simpa using this
    rw [this]
    rw [← t2]
    constructor
    · intro h; exact ⟨c, h⟩
    · rintro ⟨v, rfl⟩
      simpa [Token.text] using t1
  · intro h
    unfold stringToken at h ⊢
    repeat' split
    all_goals first
      | exact .inl rfl
      | exact .inr rfl
      | skip
    all_goals simp_all

/-- A multi-line string is never a number: its content is empty or ends in a line feed. -/
theorem multi_line_no_number (x : Ext W F) (hx : Writes x) (l : UInt8) (w hdr : List UInt8) (lns : List (List UInt8)) (eol rest : List UInt8)
    (hw : w.map lowerByte = [116, 101, 120, 116]) (hw' : ∀ c ∈ w, letter c) (hh : 10 ∉ hdr)
    (hl : ∀ ln ∈ lns, Inner ln) (he : eol = [10] ∨ eol = [13, 10])
    (hm : (lns.flatMap fun ln => undot ln ++ [10]).length < x.maxString) :
    ∃ t : Token W F, (∀ n, t ≠ .stringNumber n) ∧
      lex x ⟨[], false, l, .none⟩ (w ++ 58 :: (hdr ++ 10 :: ((lns.flatMap fun ln => ln ++ [10]) ++ 46 :: (eol ++ rest))))
        = (t :: (lex x {} rest).1, (lex x {} rest).2) := by
  obtain ⟨t, h1, -, h3⟩ := multi_line x l w hdr lns eol rest hw hw' hh hl he hm
  refine ⟨t, ?_, h3⟩
  rintro n rfl
  have key : (lns.flatMap fun ln => undot ln ++ [10]) = [] ∨ 10 ∈ (lns.flatMap fun ln => undot ln ++ [10]) := by
    cases lns with
    | nil => exact .inl rfl
    | cons a as => exact .inr (by simp)
  cases n with
  | int n =>
    simp only [Token.text, Option.some.injEq] at h1
    rw [← h1] at key
    rcases key with k | k
    · obtain ⟨b, hb, -⟩ := hx.intDigit n
      rw [k] at hb; cases hb
    · rcases hx.int n 10 k with k | k <;> exact absurd k (by decide)
  | flt f =>
    simp only [Token.text, Option.some.injEq] at h1
    rw [← h1] at key
    rcases key with k | k
    · exact (hx.fltLine f).1 k
    · exact (hx.fltLine f).2 k

/-! ## A case -/

/-- The numbers 42, 0, 1.5 and 1. -/
def numExt : Ext Nat Bool where
  word _ := none
  parseInt c := if c = [52, 50] then some 42 else if c = [48] ∨ c = [48, 48] then some 0 else none
  showInt n := if n = 42 then [52, 50] else [48]
  parseFlt c := if c = [49, 46, 53] then some true else none
  showFlt f := if f then [49, 46, 53] else [49]
  maxString := 100

example : Writes numExt where
  int n b hb := by
    simp only [numExt] at hb
    split at hb <;> simp at hb <;> [rcases hb with rfl | rfl; subst hb] <;> decide
  intDigit n := by
    simp only [numExt]
    split
    · exact ⟨52, by simp, by decide⟩
    · exact ⟨48, by simp, by decide⟩
  flt f h := by cases f <;> revert h <;> decide
  fltLine f := by cases f <;> decide

/-- `"42" "00" "1.5" "1.5."` -/
example : lex numExt {} (34 :: (escape [52, 50] ++ [34, 34, 48, 48, 34, 34, 49, 46, 53, 34, 34, 49, 46, 53, 46, 34]))
    = ([.stringNumber (.int 42), .string [48, 48], .stringNumber (.flt true), .string [49, 46, 53, 46]], none) := by
  rw [lex_eq_lexN _ 20 _ _ (by decide)]; decide

example : Plain [52, 50] := by
  constructor
  · intro u h
    have := congrArg (·.getLast?) h
    simp at this
  · intro u d v h
    have : (92 : UInt8) ∈ [52, 50] := by rw [h]; simp
    exact absurd this (by decide)

end Sieve.Lex
