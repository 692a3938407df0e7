import Verif.LexLemmas

/-!
# Strings and numbers in the lexer: lemmas
-/

namespace Sieve.Lex

variable {W F : Type}

/-- There is `${` or `%{` in the text that follows the character `l`. -/
def varFrom : UInt8 → List UInt8 → Bool
  | _, [] => false
  | l, c :: cs => (c = 123 && (l = 36 || l = 37)) || varFrom c cs

theorem varFrom_append (l : UInt8) (a b : List UInt8) :
    varFrom l (a ++ 10 :: b) = (varFrom l a || varFrom 10 b) := by
  induction a generalizing l with
  | nil => simp [varFrom]
  | cons c cs ih => simp [varFrom, ih, Bool.or_assoc]

theorem varFrom_iff (l : UInt8) (s : List UInt8) :
    varFrom l s = true ↔ ∃ u v d, (d = 36 ∨ d = 37) ∧ l :: s = u ++ d :: 123 :: v := by
  induction s generalizing l with
  | nil =>
    simp only [varFrom, Bool.false_eq_true, false_iff]
    rintro ⟨u, v, d, _, h⟩
    have := congrArg List.length h
    simp at this
    omega
  | cons c cs ih =>
    simp only [varFrom, Bool.or_eq_true, Bool.and_eq_true, decide_eq_true_eq, ih]
    constructor
    · rintro (⟨rfl, h⟩ | ⟨u, v, d, hd, h⟩)
      · exact ⟨[], cs, l, h, rfl⟩
      · exact ⟨l :: u, v, d, hd, by rw [h]; rfl⟩
    · rintro ⟨u, v, d, hd, h⟩
      cases u with
      | nil =>
        simp only [List.nil_append, List.cons.injEq] at h
        exact .inl ⟨h.2.1, by rw [h.1]; exact hd⟩
      | cons a u =>
        simp only [List.cons_append, List.cons.injEq] at h
        exact .inr ⟨u, v, d, hd, h.2⟩

/-! ## Quoted strings -/

theorem quoted_char (x : Ext W F) (b : List UInt8) (g : Bool) (l : UInt8) (t : StrType) (ch : UInt8)
    (rest : List UInt8) (h34 : ch ≠ 34 ∨ l = 92) (h92 : ch ≠ 92) (hn : l = 92 → ch ≠ 110 ∧ ch ≠ 114 ∧ ch ≠ 116) :
    ∃ t' : StrType, t'.maybeVariable = (t.maybeVariable || (ch = 123 && (l = 36 || l = 37))) ∧
      step x ⟨b, g, l, .quoted t⟩ ch rest = .go ⟨b ++ [ch], g, ch, .quoted t'⟩ 0 [] := by
  have e : step x ⟨b, g, l, .quoted t⟩ ch rest = stepQuoted x ⟨b, g, ch, .quoted t⟩ l t ch := rfl
  rw [e]
  unfold stepQuoted
  have hu : unescape l ch = ch := by
    unfold unescape
    by_cases hl : l = 92
    · have := hn hl
      simp [hl, this]
    · simp [hl]
  rw [if_neg (by simp; intro h; rcases h34 with h' | h' <;> [exact absurd h h'; exact h']), hu]
  by_cases h10 : ch = 10
  · subst h10; refine ⟨_, ?_, rfl⟩; simp
  rw [if_neg h10]
  by_cases hv : (ch = 123 && (l = 36 || l = 37)) = true
  · rw [if_pos hv]; refine ⟨_, ?_, rfl⟩; simp [hv]
  rw [if_neg hv, if_neg h92]
  simp only [Bool.not_eq_true] at hv
  rw [hv]
  by_cases hd : isDigit ch = true
  · rw [if_pos hd]; refine ⟨_, ?_, rfl⟩; simp
  rw [if_neg hd]
  by_cases hp : ch = 46
  · rw [if_pos hp]
    refine ⟨_, ?_, rfl⟩
    split <;> simp
  rw [if_neg hp]
  refine ⟨_, ?_, rfl⟩; simp

theorem quoted_backslash (x : Ext W F) (b : List UInt8) (g : Bool) (l : UInt8) (t : StrType) (rest : List UInt8) :
    step x ⟨b, g, l, .quoted t⟩ 92 rest
      = .go ⟨if l = 92 then b ++ [92] else b, g, 92, .quoted t⟩ 0 [] := by
  have e : step x ⟨b, g, l, .quoted t⟩ 92 rest = stepQuoted x ⟨b, g, 92, .quoted t⟩ l t 92 := rfl
  rw [e]
  unfold stepQuoted
  rw [if_neg (by simp), if_neg (by decide), if_neg (by simp), if_pos rfl]
  split <;> rfl

theorem quoted_end (x : Ext W F) (b : List UInt8) (g : Bool) (l : UInt8) (t : StrType) (rest : List UInt8)
    (hl : l ≠ 92) (hb : b.length < x.maxString) :
    step x ⟨b, g, l, .quoted t⟩ 34 rest = .go ⟨[], g, 34, .none⟩ 0 [stringToken x b t] := by
  have e : step x ⟨b, g, l, .quoted t⟩ 34 rest = stepQuoted x ⟨b, g, 34, .quoted t⟩ l t 34 := rfl
  rw [e]
  unfold stepQuoted getString
  rw [if_pos (by simp [hl]), if_pos hb]

theorem quoted_long (x : Ext W F) (b : List UInt8) (g : Bool) (l : UInt8) (t : StrType) (rest : List UInt8)
    (hl : l ≠ 92) (hb : ¬ b.length < x.maxString) :
    step x ⟨b, g, l, .quoted t⟩ 34 rest = .fail .stringTooLong := by
  have e : step x ⟨b, g, l, .quoted t⟩ 34 rest = stepQuoted x ⟨b, g, 34, .quoted t⟩ l t 34 := rfl
  rw [e]
  unfold stepQuoted getString
  rw [if_pos (by simp [hl]), if_neg hb]

/-- The grammar's way of writing a text between quotes. -/
def escape : List UInt8 → List UInt8
  | [] => []
  | c :: cs => if c = 34 ∨ c = 92 then 92 :: c :: escape cs else c :: escape cs

/-- No backslash is followed by one of the characters that the lexer confuses, nor is it the last. -/
def PlainFrom : UInt8 → List UInt8 → Prop
  | l, [] => l ≠ 92
  | l, c :: cs => (l = 92 → c ≠ 34 ∧ c ≠ 92 ∧ c ≠ 110 ∧ c ≠ 114 ∧ c ≠ 116) ∧ PlainFrom c cs

theorem lex_quoted (x : Ext W F) : ∀ (c b : List UInt8) (g : Bool) (l : UInt8) (t : StrType) (rest : List UInt8),
    PlainFrom l c → ∃ t' : StrType, ∃ l', l' ≠ 92 ∧ t'.maybeVariable = (t.maybeVariable || varFrom l c) ∧
      lex x ⟨b, g, l, .quoted t⟩ (escape c ++ rest) = lex x ⟨b ++ c, g, l', .quoted t'⟩ rest
  | [], b, g, l, t, rest, hp => ⟨t, l, hp, by simp [varFrom], by simp [escape]⟩
  | c :: cs, b, g, l, t, rest, hp => by
    by_cases h92 : c = 92
    · subst h92
      have hl : l ≠ 92 := fun h => (hp.1 h).2.1 rfl
      obtain ⟨t', l', h1, h2, h3⟩ := lex_quoted x cs (b ++ [92]) g 92 t rest hp.2
      refine ⟨t', l', h1, by simp [varFrom, h2], ?_⟩
      simp only [escape, or_true, if_true, List.cons_append]
      rw [lex_go x (quoted_backslash x b g l t _)]
      simp only [hl, if_false, List.drop_zero, List.nil_append]
      rw [lex_go x (quoted_backslash x b g 92 t _)]
      simp only [if_true, List.drop_zero, List.nil_append]
      rw [h3]; simp
    · by_cases h34 : c = 34
      · subst h34
        have hl : l ≠ 92 := fun h => (hp.1 h).1 rfl
        obtain ⟨t1, k1, k2⟩ := quoted_char x b g 92 t 34 (escape cs ++ rest) (.inr rfl) (by decide) (by decide)
        obtain ⟨t', l', h1, h2, h3⟩ := lex_quoted x cs (b ++ [34]) g 34 t1 rest hp.2
        refine ⟨t', l', h1, by simp [varFrom, h2, k1], ?_⟩
        simp only [escape, true_or, if_true, List.cons_append]
        rw [lex_go x (quoted_backslash x b g l t _)]
        simp only [hl, if_false, List.drop_zero, List.nil_append]
        rw [lex_go x k2]
        simp only [List.drop_zero, List.nil_append]
        rw [h3]; simp
      · obtain ⟨t1, k1, k2⟩ := quoted_char x b g l t c (escape cs ++ rest) (.inl h34) h92
          (fun h => (hp.1 h).2.2)
        obtain ⟨t', l', h1, h2, h3⟩ := lex_quoted x cs (b ++ [c]) g c t1 rest hp.2
        refine ⟨t', l', h1, by simp [varFrom, h2, k1, Bool.or_assoc], ?_⟩
        simp only [escape, h34, h92, or_self, if_false, List.cons_append]
        rw [lex_go x k2]
        simp only [List.drop_zero, List.nil_append]
        rw [h3]; simp

/-! ## Multi-line strings -/

theorem multi_char (x : Ext W F) (b : List UInt8) (g : Bool) (l : UInt8) (t : StrType) (ch : UInt8)
    (rest : List UInt8) (h : ¬ (ch = 46 ∧ l = 10)) :
    ∃ t' : StrType, t'.maybeVariable = (t.maybeVariable || (ch = 123 && (l = 36 || l = 37))) ∧
      step x ⟨b, g, l, .multi t⟩ ch rest = .go ⟨b ++ [ch], g, ch, .multi t'⟩ 0 [] := by
  have e : step x ⟨b, g, l, .multi t⟩ ch rest = stepMulti x ⟨b, g, ch, .multi t⟩ l t ch rest := rfl
  rw [e]
  unfold stepMulti
  rw [if_neg (by simpa using h)]
  by_cases h10 : ch = 10
  · subst h10; refine ⟨_, ?_, rfl⟩; simp
  rw [if_neg h10]
  by_cases hv : (ch = 123 && (l = 36 || l = 37)) = true
  · rw [if_pos hv]; refine ⟨_, ?_, rfl⟩; simp [hv]
  rw [if_neg hv]
  simp only [Bool.not_eq_true] at hv
  rw [hv]
  by_cases hd : isDigit ch = true
  · rw [if_pos hd]; refine ⟨_, ?_, rfl⟩; simp
  rw [if_neg hd]
  by_cases hp : ch = 46
  · rw [if_pos hp]
    refine ⟨_, ?_, rfl⟩
    split <;> simp
  rw [if_neg hp]
  refine ⟨_, ?_, rfl⟩; simp

/-- The rest of a line, with its end. -/
theorem lex_rest (x : Ext W F) (g : Bool) (q : List UInt8) : ∀ (r b : List UInt8) (l : UInt8) (t : StrType),
    10 ∉ r → (l = 10 → r.head? ≠ some 46) →
    ∃ t' : StrType, t'.maybeVariable = (t.maybeVariable || varFrom l r) ∧
      lex x ⟨b, g, l, .multi t⟩ (r ++ 10 :: q) = lex x ⟨b ++ r ++ [10], g, 10, .multi t'⟩ q
  | [], b, l, t, _, _ => by
    obtain ⟨t', k1, k2⟩ := multi_char x b g l t 10 q (by simp)
    refine ⟨t', by simp [k1, varFrom], ?_⟩
    rw [List.nil_append, lex_go x k2]
    simp
  | c :: r, b, l, t, h, hl => by
    simp only [List.mem_cons, not_or] at h
    obtain ⟨t1, k1, k2⟩ := multi_char x b g l t c (r ++ 10 :: q) (by
      rintro ⟨rfl, h'⟩
      exact hl h' rfl)
    obtain ⟨t', h1, h2⟩ := lex_rest x g q r (b ++ [c]) c t1 h.2 (fun e => absurd e.symm h.1)
    refine ⟨t', by simp [h1, k1, varFrom, Bool.or_assoc], ?_⟩
    rw [List.cons_append, lex_go x k2]
    simp only [List.drop_zero, List.nil_append]
    rw [h2]; simp

/-- A leading dot is removed if another dot follows. -/
def undot : List UInt8 → List UInt8
  | 46 :: 46 :: r => 46 :: r
  | l => l

/-- A line that is not the end of the text. -/
def Inner (ln : List UInt8) : Prop := 10 ∉ ln ∧ ln ≠ [46] ∧ ln ≠ [46, 13]

theorem lex_line (x : Ext W F) (g : Bool) (q : List UInt8) (ln b : List UInt8) (t : StrType) (h : Inner ln) :
    ∃ t' : StrType, t'.maybeVariable = (t.maybeVariable || varFrom 10 (undot ln)) ∧
      lex x ⟨b, g, 10, .multi t⟩ (ln ++ 10 :: q) = lex x ⟨b ++ undot ln ++ [10], g, 10, .multi t'⟩ q := by
  obtain ⟨h10, hd, hd'⟩ := h
  have hstep : ∀ rest, step x ⟨b, g, 10, .multi t⟩ 46 rest = stepDot x ⟨b, g, 46, .multi t⟩ t rest := fun _ => rfl
  match ln with
  | [] => exact lex_rest x g q [] b 10 t (by simp) (by simp)
  | [c] =>
    have hc : c ≠ 46 := fun e => hd (by rw [e])
    have : undot [c] = [c] := by unfold undot; split <;> simp_all
    rw [this]
    exact lex_rest x g q [c] b 10 t h10 (by simpa using hc)
  | c :: d :: r =>
    by_cases hc : c = 46
    · subst hc
      simp only [List.mem_cons, not_or] at h10
      by_cases hd46 : d = 46
      · subst hd46
        obtain ⟨t', h1, h2⟩ := lex_rest x g q r (b ++ [46]) 46 t h10.2.2 (by simp)
        refine ⟨t', by simp [h1, undot, varFrom], ?_⟩
        simp only [List.cons_append]
        rw [lex_go x (hstep _)]
        simp only [List.drop_succ_cons, List.drop_zero, List.nil_append, push]
        rw [h2]; simp [undot]
      · have hu : undot (46 :: d :: r) = 46 :: d :: r := by unfold undot; split <;> simp_all
        obtain ⟨t', h1, h2⟩ := lex_rest x g q r (b ++ [46] ++ [d]) d t h10.2.2 (fun e => absurd e.symm h10.2.1)
        refine ⟨t', by simp [h1, hu, varFrom], ?_⟩
        simp only [List.cons_append]
        have hs : stepDot x ⟨b, g, 46, .multi t⟩ t (d :: (r ++ 10 :: q))
            = .go ⟨b ++ [46] ++ [d], g, d, .multi t⟩ 1 [] := by
          unfold stepDot
          split
          · rename_i e
            simp only [List.cons.injEq] at e
            cases r with
            | nil => exact absurd (by rw [e.1]) hd'
            | cons y ys =>
              simp only [List.cons_append, List.cons.injEq] at e
              exact absurd (by rw [e.2.1]; simp) h10.2.2
          · rename_i e
            simp only [List.cons.injEq] at e
            exact absurd e.1.symm h10.2.1
          · rename_i e
            simp only [List.cons.injEq] at e
            exact absurd e.1 hd46
          · rename_i e
            simp only [List.cons.injEq] at e
            rw [e.1]; rfl
          · rename_i e
            cases e
        rw [lex_go x ((hstep _).trans hs)]
        simp only [List.drop_succ_cons, List.drop_zero, List.nil_append]
        rw [h2, hu]; simp
    · have : undot (c :: d :: r) = c :: d :: r := by unfold undot; split <;> simp_all
      rw [this]
      exact lex_rest x g q _ b 10 t h10 (by simpa using hc)

theorem lex_lines (x : Ext W F) (g : Bool) (q : List UInt8) : ∀ (lns : List (List UInt8)) (b : List UInt8) (t : StrType),
    (∀ ln ∈ lns, Inner ln) →
    ∃ t' : StrType, t'.maybeVariable = (t.maybeVariable || varFrom 10 (lns.flatMap fun ln => undot ln ++ [10])) ∧
      lex x ⟨b, g, 10, .multi t⟩ ((lns.flatMap fun ln => ln ++ [10]) ++ q)
        = lex x ⟨b ++ lns.flatMap fun ln => undot ln ++ [10], g, 10, .multi t'⟩ q
  | [], b, t, _ => ⟨t, by simp [varFrom], by simp⟩
  | ln :: lns, b, t, h => by
    obtain ⟨t1, k1, k2⟩ := lex_line x g ((lns.flatMap fun ln => ln ++ [10]) ++ q) ln b t (h ln (by simp))
    obtain ⟨t', h1, h2⟩ := lex_lines x g q lns (b ++ undot ln ++ [10]) t1 (fun l hl => h l (by simp [hl]))
    refine ⟨t', ?_, ?_⟩
    · rw [h1, k1]
      simp [varFrom_append, Bool.or_assoc]
    · simp only [List.flatMap_cons, List.append_assoc, List.cons_append, List.nil_append] at k2 h2 ⊢
      rw [k2, h2]

/-- The end of the text. -/
theorem multi_end (x : Ext W F) (b : List UInt8) (g : Bool) (t : StrType) (eol rest : List UInt8)
    (he : eol = [10] ∨ eol = [13, 10]) (hb : b.length < x.maxString) :
    lex x ⟨b, g, 10, .multi t⟩ (46 :: (eol ++ rest))
      = (stringToken x b t :: (lex x ⟨[], g, 10, .none⟩ rest).1, (lex x ⟨[], g, 10, .none⟩ rest).2) := by
  have hstep : ∀ rest, step x ⟨b, g, 10, .multi t⟩ 46 rest = stepDot x ⟨b, g, 46, .multi t⟩ t rest := fun _ => rfl
  rcases he with rfl | rfl
  · have : stepDot x ⟨b, g, 46, .multi t⟩ t (10 :: rest) = .go ⟨[], g, 10, .none⟩ 1 [stringToken x b t] := by
      simp [stepDot, getString, hb]
    simp only [List.cons_append, List.nil_append]
    rw [lex_go x ((hstep _).trans this)]
    simp
  · have : stepDot x ⟨b, g, 46, .multi t⟩ t (13 :: 10 :: rest) = .go ⟨[], g, 10, .none⟩ 2 [stringToken x b t] := by
      simp [stepDot, getString, hb]
    simp only [List.cons_append, List.nil_append]
    rw [lex_go x ((hstep _).trans this)]
    simp

/-! ## Words and numbers -/

/-- Letters of the alphabet. -/
def letter (c : UInt8) : Bool := (97 ≤ c && c ≤ 122) || (65 ≤ c && c ≤ 90)

/-- Digits. -/
def digit (c : UInt8) : Bool := 48 ≤ c && c ≤ 57

/-- The characters of words: letters, digits, `_`, `.` and `$`. -/
def wordChar (c : UInt8) : Bool := letter c || digit c || c = 95 || c = 46 || c = 36

/-- Lower case of letters. -/
def lowerByte (c : UInt8) : UInt8 := if 65 ≤ c ∧ c ≤ 90 then c + 32 else c

theorem digit_eq (c : UInt8) : digit c = isDigit c := rfl

theorem letter_eq (c : UInt8) : letter c = (isLower c || isUpper c) := rfl

theorem wordChar_eq (c : UInt8) : wordChar c = (isLower c || isDigit c || c = 95 || c = 46 || c = 36 || isUpper c) := by
  simp only [wordChar, letter, digit, isLower, isDigit, isUpper]
  simp only [Bool.or_assoc, Bool.or_comm, Bool.or_left_comm]

theorem lowerByte_eq (c : UInt8) : lowerByte c = if isUpper c then c + 32 else c := by
  simp only [lowerByte, isUpper, Bool.and_eq_true, decide_eq_true_eq]

set_option maxRecDepth 20000 in
theorem upper_not (c : UInt8) (h : isUpper c = true) :
    (isLower c || isDigit c || c = 95 || c = 46 || c = 36) = false := by
  revert c
  have : ∀ n : Fin 256, isUpper (UInt8.ofNat n) = true →
    (isLower (UInt8.ofNat n) || isDigit (UInt8.ofNat n) || UInt8.ofNat n = 95 || UInt8.ofNat n = 46
      || UInt8.ofNat n = 36) = false := by decide
  intro c
  have := this ⟨c.toNat, c.toNat_lt⟩
  simpa using this

theorem lex_word (x : Ext W F) (g : Bool) (q : List UInt8) : ∀ (w b : List UInt8) (l : UInt8),
    (∀ c ∈ w, wordChar c) →
    lex x ⟨b, g, l, .none⟩ (w ++ q) = lex x ⟨b ++ w.map lowerByte, g, l, .none⟩ q
  | [], b, l, _ => by simp
  | c :: w, b, l, h => by
    have hc : wordChar c = true := h c (by simp)
    have hs : step x ⟨b, g, l, .none⟩ c (w ++ q) = .go ⟨b ++ [lowerByte c], g, c, .none⟩ 0 [] := by
      have : step x ⟨b, g, l, .none⟩ c (w ++ q) = stepNone x ⟨b, g, c, .none⟩ c (w ++ q) := rfl
      rw [this]
      rw [lowerByte_eq]
      unfold stepNone
      by_cases hu : isUpper c = true
      · rw [if_neg (by rw [upper_not c hu]; decide), if_pos hu, if_pos hu]; rfl
      · rw [if_pos (by simpa [wordChar_eq, hu] using hc), if_neg hu]; rfl
    rw [List.cons_append, lex_go x hs]
    simp only [List.drop_zero, List.nil_append]
    rw [lex_word x g q w _ c (fun d hd => h d (by simp [hd]))]
    rw [lex_last x _ l (by rfl)]
    simp

/-- Characters that end a word. -/
def delim (d : UInt8) : Bool := d ∈ [10, 32, 9, 13, 123, 125, 59, 44, 91, 93, 40, 41, 34, 35]

theorem lex_delim (x : Ext W F) (b : List UInt8) (g : Bool) (l : UInt8) (d : UInt8) (q : List UInt8)
    (hb : b ≠ []) (hd : delim d) :
    lex x ⟨b, g, l, .none⟩ (d :: q)
      = (wordToken x b g :: (lex x {} (d :: q)).1, (lex x {} (d :: q)).2) := by
  have hb' : b.isEmpty = false := by simpa using hb
  have hc : ∀ l, current x ⟨b, g, l, .none⟩ = [wordToken x b g] := by
    intro l; simp [current, hb']
  have hr : ∀ l, reset ⟨b, g, l, .none⟩ = ⟨[], false, l, .none⟩ := by
    intro l; simp [reset, hb']
  have hc0 : ∀ l, current x ⟨[], false, l, .none⟩ = [] := fun l => rfl
  have hr0 : ∀ l, reset ⟨[], false, l, .none⟩ = ⟨[], false, l, .none⟩ := fun l => rfl
  obtain ⟨s1, ts, e1, e2⟩ : ∃ s1 ts, stepNone x ⟨[], false, d, .none⟩ d q = .go s1 0 ts ∧
      stepNone x ⟨b, g, d, .none⟩ d q = .go s1 0 (wordToken x b g :: ts) := by
    simp only [delim, List.mem_cons, List.not_mem_nil, or_false, decide_eq_true_eq] at hd
    rcases hd with rfl | rfl | rfl | rfl | rfl | rfl | rfl | rfl | rfl | rfl | rfl | rfl | rfl | rfl <;>
      refine ⟨_, _, rfl, ?_⟩ <;>
      simp [stepNone, isLower, isDigit, isUpper, symbol, hc, hr, hc0, hr0]
  have f1 : step x {} d q = .go s1 0 ts := e1
  have f2 : step x ⟨b, g, l, .none⟩ d q = .go s1 0 (wordToken x b g :: ts) := e2
  rw [lex_go x f1, lex_go x f2]
  simp

/-- The value of a list of digits. -/
def decimal : List UInt8 → Nat
  | [] => 0
  | d :: ds => (d.toNat - 48) * 10 ^ ds.length + decimal ds

theorem parseGo_digits : ∀ (ds : List UInt8) (n : Nat), n < 2 ^ 64 → (∀ d ∈ ds, isDigit d) →
    parseGo n ds = if n * 10 ^ ds.length + decimal ds < 2 ^ 64 then some (n * 10 ^ ds.length + decimal ds) else none
  | [], n, hn, _ => by simp [parseGo, decimal]; omega
  | d :: ds, n, hn, h => by
    have hd : isDigit d = true := h d (by simp)
    have e : n * 10 ^ (d :: ds).length + decimal (d :: ds)
        = (n * 10 + (d.toNat - 48)) * 10 ^ ds.length + decimal ds := by
      simp only [List.length_cons, decimal, Nat.pow_succ]
      ring
    rw [e, parseGo]
    by_cases hv : n * 10 + (d.toNat - 48) < 2 ^ 64
    · rw [if_pos (by simp [hd]; exact hv)]
      exact parseGo_digits ds _ hv (fun c hc => h c (by simp [hc]))
    · rw [if_neg (by simp [hd]; omega), if_neg]
      have : 1 ≤ 10 ^ ds.length := Nat.one_le_pow _ _ (by decide)
      have : (n * 10 + (d.toNat - 48)) * 1 ≤ (n * 10 + (d.toNat - 48)) * 10 ^ ds.length := Nat.mul_le_mul_left _ this
      omega

theorem parseUsize_digits (ds : List UInt8) (h0 : ds ≠ []) (h : ∀ d ∈ ds, isDigit d) :
    parseUsize ds = if decimal ds < 2 ^ 64 then some (decimal ds) else none := by
  unfold parseUsize
  rw [if_neg (by simpa using h0), parseGo_digits ds 0 (by decide) h]
  simp

theorem digit_word (c : UInt8) (h : isDigit c = true) : wordChar c = true := by simp [wordChar_eq, h]

set_option maxRecDepth 20000 in
theorem digit_lower (c : UInt8) (h : isDigit c = true) : lowerByte c = c ∧ multiplier c = 1 := by
  revert c
  have : ∀ n : Fin 256, isDigit (UInt8.ofNat n) = true →
    lowerByte (UInt8.ofNat n) = UInt8.ofNat n ∧ multiplier (UInt8.ofNat n) = 1 := by decide
  intro c
  have := this ⟨c.toNat, c.toNat_lt⟩
  simpa using this

theorem map_lower_digits (ds : List UInt8) (h : ∀ d ∈ ds, isDigit d) : ds.map lowerByte = ds := by
  induction ds with
  | nil => rfl
  | cons d ds ih =>
    simp [digit_lower d (h d (by simp)), ih (fun c hc => h c (by simp [hc]))]

end Sieve.Lex
