import Verif.LexText

/-!
# Properties of the lexer

* C33: a quoted string denotes its content (partly; see `quoted_backslash_last`, `quoted_backslash_pair`,
  `quoted_backslash_letter` for the contents for which this fails).
* C34: multi-line strings.
* C35: numbers.
* C36: comments.
* C51: the last word of a script (fails: `last_word_dropped`).

Bytes are written as numbers: 34 is `"`, 92 `\`, 46 `.`, 10 the line feed, 13 the carriage return, 47 `/`,
42 `*`, 35 `#`, 58 `:`.
-/

namespace Sieve.Lex

variable {W F : Type}

/-! ## Evaluating the lexer on examples -/

/-- `lex` with a bound on the number of rounds, for computing. -/
def lexN (x : Ext W F) : Nat → St → List UInt8 → List (Token W F) × Option Err
  | _, s, [] =>
    match s.mode with
    | .bracket | .quoted _ | .multi _ => ([], some .unterminated)
    | _ => ([], none)
  | 0, _, _ :: _ => ([], none)
  | n + 1, s, ch :: rest =>
    match step x s ch rest with
    | .fail e => ([], some e)
    | .go s' skip toks => (toks ++ (lexN x n s' (rest.drop skip)).1, (lexN x n s' (rest.drop skip)).2)

theorem lex_eq_lexN (x : Ext W F) : ∀ (n : Nat) (s : St) (l : List UInt8), l.length ≤ n → lex x s l = lexN x n s l
  | n, s, [], _ => by rw [lex.eq_def]; cases hm : s.mode <;> cases n <;> simp [lexN, hm]
  | 0, s, c :: l, h => by simp at h
  | n + 1, s, c :: l, h => by
    rw [lex.eq_def]
    simp only [lexN]
    cases hs : step x s c l with
    | fail e => rfl
    | go s' k ts =>
      simp only []
      rw [lex_eq_lexN x n s' (l.drop k) (by simp at h ⊢; omega)]

/-- An instance of the parameters: `keep` is word 1, `is` is word 2, no string is a number. -/
def exExt : Ext Nat Int where
  word w := if w = [107, 101, 101, 112] then some 1 else if w = [105, 115] then some 2 else none
  parseInt _ := none
  showInt _ := []
  parseFlt _ := none
  showFlt _ := []
  maxString := 100

/-! ## C33: quoted strings -/

/-- The text that a string token stands for. -/
def Token.text (x : Ext W F) : Token W F → Option (List UInt8)
  | .string s => some s
  | .stringVar s => some s
  | .stringNumber (.int n) => some (x.showInt n)
  | .stringNumber (.flt n) => some (x.showFlt n)
  | _ => none

/-- The text contains `${` or `%{`. -/
def HasVar (c : List UInt8) : Prop := ∃ u v d, (d = 36 ∨ d = 37) ∧ c = u ++ d :: 123 :: v

/-- The contents for which the claim holds: a backslash is not the last character, and is not followed by a
quote, a backslash or one of the letters `n`, `r`, `t`. -/
def Plain (c : List UInt8) : Prop :=
  (∀ u, c ≠ u ++ [92]) ∧ ∀ u d v, c = u ++ 92 :: d :: v → d ∉ [(34 : UInt8), 92, 110, 114, 116]

theorem stringToken_text (x : Ext W F) (b : List UInt8) (t : StrType) : (stringToken x b t).text x = some b := by
  unfold stringToken
  repeat' split
  all_goals first | rfl | simp_all [Token.text]

theorem stringToken_var (x : Ext W F) (b : List UInt8) (t : StrType) :
    (∃ v, stringToken x b t = .stringVar v) ↔ t.maybeVariable = true := by
  unfold stringToken
  repeat' split
  all_goals simp_all

theorem plainFrom_of (l : UInt8) (c : List UInt8) (h1 : ∀ u, l :: c ≠ u ++ [92])
    (h2 : ∀ u d v, l :: c = u ++ 92 :: d :: v → d ∉ [(34 : UInt8), 92, 110, 114, 116]) : PlainFrom l c := by
  induction c generalizing l with
  | nil =>
    intro e
    subst e
    exact h1 [] rfl
  | cons a c ih =>
    refine ⟨?_, ih a (fun u e => h1 (l :: u) (by rw [e]; rfl)) (fun u d v e => h2 (l :: u) d v (by rw [e]; rfl))⟩
    intro e
    subst e
    simpa using h2 [] a c rfl

theorem plainFrom_plain (c : List UInt8) (h : Plain c) : PlainFrom 34 c := by
  refine plainFrom_of 34 c ?_ ?_
  · intro u e
    cases u with
    | nil => simp at e
    | cons a u =>
      simp only [List.cons_append, List.cons.injEq] at e
      exact h.1 u e.2
  · intro u d v e
    cases u with
    | nil => simp at e
    | cons a u =>
      simp only [List.cons_append, List.cons.injEq] at e
      exact h.2 u d v e.2

theorem varFrom_hasVar (l : UInt8) (c : List UInt8) (h : l ≠ 36) (h' : l ≠ 37) : varFrom l c = true ↔ HasVar c := by
  rw [varFrom_iff]
  constructor
  · rintro ⟨u, v, d, hd, e⟩
    cases u with
    | nil =>
      simp only [List.nil_append, List.cons.injEq] at e
      rcases hd with rfl | rfl
      · exact absurd e.1 h
      · exact absurd e.1 h'
    | cons a u =>
      simp only [List.cons_append, List.cons.injEq] at e
      exact ⟨u, v, d, hd, e.2⟩
  · rintro ⟨u, v, d, hd, e⟩
    exact ⟨l :: u, v, d, hd, by rw [e]; rfl⟩

theorem quoted_start (x : Ext W F) (s : St) (h : s.mode = .none) (rest : List UInt8) :
    lex x s (34 :: rest) = (current x s ++ (lex x ⟨(reset s).buf, (reset s).isTag, 34, .quoted {}⟩ rest).1,
      (lex x ⟨(reset s).buf, (reset s).isTag, 34, .quoted {}⟩ rest).2) := by
  have : step x s 34 rest = .go ⟨(reset s).buf, (reset s).isTag, 34, .quoted {}⟩ 0 (current x s) := by
    have e2 : ({ reset { s with last := 34 } with mode := Mode.quoted {} } : St)
        = ⟨(reset s).buf, (reset s).isTag, 34, .quoted {}⟩ := by
      unfold reset; by_cases hb : s.buf.isEmpty <;> simp [hb]
    simp only [step, h]
    simp [stepNone, isLower, isUpper, isDigit, ← e2, h]; rfl
  rw [lex_go x this]
  simp

theorem reset_buf (s : St) : (reset s).buf = [] := by
  unfold reset
  split
  · simp_all
  · rfl

theorem reset_eta (x : Ext W F) (s : St) (h : s.mode = .none) (l : UInt8) (rest : List UInt8) :
    lex x ⟨[], (reset s).isTag, l, .none⟩ rest = lex x (reset s) rest := by
  rw [lex_last x (reset s) l (by rw [reset_mode, h])]
  congr 1
  have h1 := reset_mode s
  have h2 := reset_buf s
  rw [h] at h1
  cases hs : reset s
  simp_all

/-- C33.  Wherever a quoted string stands outside other strings and comments (`s` is the state of the lexer at its
opening quote), it gives one token that stands for the content; the token says that there may be variables exactly if
`${` or `%{` occurs.  Contents that reach the limit are rejected. -/
theorem quoted_string_partial (x : Ext W F) (s : St) (hs : s.mode = .none) (c rest : List UInt8) (hc : Plain c) :
    (c.length < x.maxString → ∃ t : Token W F, t.text x = some c ∧ ((∃ v, t = .stringVar v) ↔ HasVar c) ∧
      lex x s (34 :: (escape c ++ 34 :: rest))
        = (current x s ++ t :: (lex x (reset s) rest).1, (lex x (reset s) rest).2)) ∧
    (x.maxString ≤ c.length →
      lex x s (34 :: (escape c ++ 34 :: rest)) = (current x s, some .stringTooLong)) := by
  obtain ⟨t', l', h1, h2, h3⟩ := lex_quoted x c (reset s).buf (reset s).isTag 34 {} (34 :: rest) (plainFrom_plain c hc)
  constructor
  · intro hl
    refine ⟨stringToken x c t', stringToken_text x c t', ?_, ?_⟩
    · rw [stringToken_var, h2, ← varFrom_hasVar 34 c (by decide) (by decide)]
      simp
    · rw [quoted_start x s hs, h3, reset_buf, List.nil_append]
      rw [lex_go x (quoted_end x c _ l' t' rest h1 hl)]
      simp only [List.drop_zero, reset_eta x s hs, List.cons_append, List.nil_append]
  · intro hl
    rw [quoted_start x s hs, h3, reset_buf, List.nil_append,
      lex_fail x (quoted_long x c _ l' t' rest h1 (by omega))]
    simp

/-- The content `say "hi"\x` and its source; the hypotheses are met. -/
example : Plain [115, 97, 121, 32, 34, 104, 105, 34, 92, 120] := by
  constructor
  · intro u e
    have := congrArg List.getLast? e
    simp at this
  · intro u d v e
    match u with
    | [] | [_] | [_, _] | [_, _, _] | [_, _, _, _] | [_, _, _, _, _] | [_, _, _, _, _, _] | [_, _, _, _, _, _, _]
    | [_, _, _, _, _, _, _, _] => simp at e <;> (try rw [← e.2.2.2.2.2.2.2.2.1]; decide)
    | _ :: _ :: _ :: _ :: _ :: _ :: _ :: _ :: _ :: u =>
      have := congrArg List.length e
      simp at this
      omega

example : lex exExt {} (34 :: (escape [115, 97, 121, 32, 34, 104, 105, 34, 92, 120] ++ [34, 59]))
    = ([.string [115, 97, 121, 32, 34, 104, 105, 34, 92, 120], .semicolon], none) := by
  rw [lex_eq_lexN _ 16 _ _ (by decide)]; decide

/-- C33 fails: the content `a\`, written `"a\\"`, is not a complete string. -/
theorem quoted_backslash_last :
    lex exExt {} (34 :: (escape [97, 92] ++ [34, 59])) = ([], some .unterminated) := by
  rw [lex_eq_lexN _ 8 _ _ (by decide)]; decide

/-- C33 fails: the content `a\\b`, written `"a\\\\b"`, gets a third backslash. -/
theorem quoted_backslash_pair :
    lex exExt {} (34 :: (escape [97, 92, 92, 98] ++ [34, 59])) = ([.string [97, 92, 92, 92, 98], .semicolon], none) := by
  rw [lex_eq_lexN _ 12 _ _ (by decide)]; decide

/-- C33 fails: the content `C:\new`, written `"C:\\new"`, gets a line feed for its `n`. -/
theorem quoted_backslash_letter :
    lex exExt {} (34 :: (escape [67, 58, 92, 110, 101, 119] ++ [34, 59]))
      = ([.string [67, 58, 92, 10, 101, 119], .semicolon], none) := by
  rw [lex_eq_lexN _ 12 _ _ (by decide)]; decide

/-! ## C34: multi-line strings -/

/-- C34.  `text:` (in any case), anything up to the end of the line, lines that are not the single dot, and the
single dot: one token for the lines, in each of which a leading dot is removed if another dot follows. -/
theorem multi_line (x : Ext W F) (l : UInt8) (w hdr : List UInt8) (lns : List (List UInt8)) (eol rest : List UInt8)
    (hw : w.map lowerByte = [116, 101, 120, 116]) (hw' : ∀ c ∈ w, letter c) (hh : 10 ∉ hdr)
    (hl : ∀ ln ∈ lns, Inner ln) (he : eol = [10] ∨ eol = [13, 10])
    (hm : (lns.flatMap fun ln => undot ln ++ [10]).length < x.maxString) :
    ∃ t : Token W F, t.text x = some (lns.flatMap fun ln => undot ln ++ [10]) ∧
      ((∃ v, t = .stringVar v) ↔ HasVar (lns.flatMap fun ln => undot ln ++ [10])) ∧
      lex x ⟨[], false, l, .none⟩ (w ++ 58 :: (hdr ++ 10 :: ((lns.flatMap fun ln => ln ++ [10]) ++ 46 :: (eol ++ rest))))
        = (t :: (lex x {} rest).1, (lex x {} rest).2) := by
  obtain ⟨t', h1, h2⟩ := lex_lines x false (46 :: (eol ++ rest)) lns [] {} hl
  refine ⟨stringToken x (lns.flatMap fun ln => undot ln ++ [10]) t', stringToken_text _ _ _, ?_, ?_⟩
  · rw [stringToken_var, h1, ← varFrom_hasVar 10 _ (by decide) (by decide)]
    simp
  · rw [lex_word x false _ w [] l (fun c hc => by
      simp [wordChar, hw' c hc]), hw, List.nil_append]
    have hs : step x ⟨[116, 101, 120, 116], false, l, .none⟩ 58
        (hdr ++ 10 :: ((lns.flatMap fun ln => ln ++ [10]) ++ 46 :: (eol ++ rest)))
        = .go ⟨[], false, 10, .multi {}⟩ (hdr.length + 1) [] := by
      have htw : ∀ q : List UInt8, (hdr ++ 10 :: q).takeWhile (fun c => decide (c ≠ 10)) = hdr := by
        intro q
        rw [List.takeWhile_append_of_pos (by intro a ha; simp; rintro rfl; exact hh ha)]
        simp
      have hdw : ∀ q : List UInt8, (hdr ++ 10 :: q).dropWhile (fun c => decide (c ≠ 10)) = 10 :: q := by
        intro q
        rw [List.dropWhile_append_of_pos (by intro a ha; simp; rintro rfl; exact hh ha)]
        simp
      have : ∀ q, step x ⟨[116, 101, 120, 116], false, l, .none⟩ 58 q
          = match q.dropWhile (fun c => decide (c ≠ 10)) with
            | [] => .go ⟨[116, 101, 120, 116], false, 58, .multi {}⟩ q.length []
            | _ :: _ => .go ⟨[], false, 10, .multi {}⟩ ((q.takeWhile (fun c => decide (c ≠ 10))).length + 1) [] :=
        fun q => rfl
      rw [this, hdw, htw]
    rw [lex_go x hs]
    have hd : ∀ q : List UInt8, (hdr ++ 10 :: q).drop (hdr.length + 1) = q := by
      intro q; simp
    rw [hd, h2]
    simp only [List.nil_append]
    rw [multi_end x _ false t' eol rest he hm]
    rw [lex_last x ⟨[], false, 10, .none⟩ 0 rfl]

/-- A text of four lines: `a`, `..b`, `.c` and `..`. -/
example : lex exExt {} ([84, 101, 120, 116] ++ 58 :: ([32, 35, 120, 13] ++ 10 ::
    (([[97], [46, 46, 98], [46, 99], [46, 46]].flatMap fun ln => ln ++ [10]) ++ 46 :: ([13, 10] ++ [59]))))
    = ([.string [97, 10, 46, 98, 10, 46, 99, 10, 46, 10], .semicolon], none) := by
  rw [lex_eq_lexN _ 40 _ _ (by decide)]; decide

example : ∀ ln ∈ [[(97 : UInt8)], [46, 46, 98], [46, 99], [46, 46]], Inner ln := by
  unfold Inner; decide

/-! ## C35: numbers -/

/-- The letters after a number, and their meaning. -/
def units : List (List UInt8 × Nat) :=
  [([], 1), ([75], 1024), ([107], 1024), ([77], 1024 ^ 2), ([109], 1024 ^ 2), ([71], 1024 ^ 3), ([103], 1024 ^ 3)]

/-- No word of the language begins with a digit. -/
def WordsOk (x : Ext W F) : Prop := ∀ c w, digit c → x.word (c :: w) = none

theorem number_word (x : Ext W F) (hx : WordsOk x) (ds suf : List UInt8) (m : Nat) (h0 : ds ≠ [])
    (hd : ∀ d ∈ ds, digit d) (hu : (suf, m) ∈ units) :
    wordToken x (ds ++ suf.map lowerByte) false
      = if decimal ds < 2 ^ 64 then .number (min (decimal ds * m) (2 ^ 64 - 1))
        else .unknown (ds ++ suf.map lowerByte) := by
  obtain ⟨c, cs, rfl⟩ : ∃ c cs, ds = c :: cs := by
    cases ds with
    | nil => exact absurd rfl h0
    | cons c cs => exact ⟨c, cs, rfl⟩
  have hc : isDigit c = true := hd c (by simp)
  have key : ∀ (sfx : List UInt8) (u : UInt8) (m : Nat), (sfx = [] ∧ m = 1 ∧ (c :: cs).getLast? = some u ∧ multiplier u = 1) ∨
      (sfx = [u] ∧ 1 < m ∧ multiplier u = m) →
      wordToken x (c :: cs ++ sfx) false
      = if decimal (c :: cs) < 2 ^ 64 then .number (min (decimal (c :: cs) * m) (2 ^ 64 - 1))
        else .unknown (c :: cs ++ sfx) := by
    intro sfx u m h
    have hp := parseUsize_digits (c :: cs) (by simp) hd
    unfold wordToken
    simp only [List.cons_append, hx c _ hc, List.head?_cons]
    rcases h with ⟨rfl, rfl, hl, hm⟩ | ⟨rfl, h1, hm⟩
    · simp only [List.append_nil, hl, hc, if_true, hm, Nat.lt_irrefl, decide_false, Bool.false_and,
        Bool.false_eq_true, if_false, hp]
      by_cases hv : decimal (c :: cs) < 2 ^ 64
      · simp only [hv, if_true]
      · simp only [hv, if_false]
    · have hl : (c :: (cs ++ [u])).getLast? = some u := by
        rw [← List.cons_append, List.getLast?_append]; simp
      have hdl : (c :: (cs ++ [u])).dropLast = c :: cs := by
        rw [← List.cons_append, List.dropLast_concat]
      have hln : 1 < (c :: (cs ++ [u])).length := by simp
      simp only [hl, hc, if_true, hm, h1, hln, decide_true, Bool.and_self, hdl, hp, Bool.false_eq_true, if_false]
      by_cases hv : decimal (c :: cs) < 2 ^ 64
      · simp only [hv, if_true]
      · simp only [hv, if_false]
  simp only [units, List.mem_cons, Prod.mk.injEq, List.not_mem_nil, or_false] at hu
  rcases hu with ⟨rfl, rfl⟩ | ⟨rfl, rfl⟩ | ⟨rfl, rfl⟩ | ⟨rfl, rfl⟩ | ⟨rfl, rfl⟩ | ⟨rfl, rfl⟩ | ⟨rfl, rfl⟩
  · have hne : c :: cs ≠ [] := by simp
    exact key [] ((c :: cs).getLast hne) 1 (.inl ⟨rfl, rfl, List.getLast?_eq_some_getLast hne,
      (digit_lower _ (hd _ (List.getLast_mem hne))).2⟩)
  · exact key [107] 107 1024 (.inr ⟨rfl, by decide, by decide⟩)
  · exact key [107] 107 1024 (.inr ⟨rfl, by decide, by decide⟩)
  · exact key [109] 109 (1024 ^ 2) (.inr ⟨rfl, by decide, by decide⟩)
  · exact key [109] 109 (1024 ^ 2) (.inr ⟨rfl, by decide, by decide⟩)
  · exact key [103] 103 (1024 ^ 3) (.inr ⟨rfl, by decide, by decide⟩)
  · exact key [103] 103 (1024 ^ 3) (.inr ⟨rfl, by decide, by decide⟩)

/-- C35.  Digits and an optional unit, up to a character that ends words, are one token: the number times the unit,
limited to 64 bits, if the digits themselves are within 64 bits. -/
theorem number_partial (x : Ext W F) (hx : WordsOk x) (l : UInt8) (ds suf : List UInt8) (m : Nat) (h0 : ds ≠ [])
    (hd : ∀ d ∈ ds, digit d) (hu : (suf, m) ∈ units) (d : UInt8) (rest : List UInt8) (hdl : delim d)
    (hv : decimal ds < 2 ^ 64) :
    lex x ⟨[], false, l, .none⟩ (ds ++ suf ++ d :: rest)
      = (.number (min (decimal ds * m) (2 ^ 64 - 1)) :: (lex x {} (d :: rest)).1, (lex x {} (d :: rest)).2) := by
  have hw : ∀ c ∈ ds ++ suf, wordChar c := by
    intro c hc
    rcases List.mem_append.1 hc with h | h
    · exact digit_word c (hd c h)
    · simp only [units, List.mem_cons, Prod.mk.injEq, List.not_mem_nil, or_false] at hu
      rcases hu with ⟨rfl, rfl⟩ | ⟨rfl, rfl⟩ | ⟨rfl, rfl⟩ | ⟨rfl, rfl⟩ | ⟨rfl, rfl⟩ | ⟨rfl, rfl⟩ | ⟨rfl, rfl⟩ <;>
        simp at h <;> subst h <;> decide
  rw [lex_word x false _ _ _ _ hw, List.nil_append, List.map_append, map_lower_digits ds hd,
    lex_delim x _ _ _ d rest (by simp [h0]) hdl, number_word x hx ds suf m h0 hd hu, if_pos hv]

/-- C35 fails for digits beyond 64 bits: they are not limited but give an unknown token. -/
theorem number_too_large (x : Ext W F) (hx : WordsOk x) (l : UInt8) (ds suf : List UInt8) (m : Nat) (h0 : ds ≠ [])
    (hd : ∀ d ∈ ds, digit d) (hu : (suf, m) ∈ units) (d : UInt8) (rest : List UInt8) (hdl : delim d)
    (hv : 2 ^ 64 ≤ decimal ds) :
    lex x ⟨[], false, l, .none⟩ (ds ++ suf ++ d :: rest)
      = (.unknown (ds ++ suf.map lowerByte) :: (lex x {} (d :: rest)).1, (lex x {} (d :: rest)).2) := by
  have hw : ∀ c ∈ ds ++ suf, wordChar c := by
    intro c hc
    rcases List.mem_append.1 hc with h | h
    · exact digit_word c (hd c h)
    · simp only [units, List.mem_cons, Prod.mk.injEq, List.not_mem_nil, or_false] at hu
      rcases hu with ⟨rfl, rfl⟩ | ⟨rfl, rfl⟩ | ⟨rfl, rfl⟩ | ⟨rfl, rfl⟩ | ⟨rfl, rfl⟩ | ⟨rfl, rfl⟩ | ⟨rfl, rfl⟩ <;>
        simp at h <;> subst h <;> decide
  rw [lex_word x false _ _ _ _ hw, List.nil_append, List.map_append, map_lower_digits ds hd,
    lex_delim x _ _ _ d rest (by simp [h0]) hdl, number_word x hx ds suf m h0 hd hu, if_neg (by omega)]

/-- C35: zeros in front do not change the value. -/
theorem number_leading_zeros (n : Nat) (ds : List UInt8) : decimal (List.replicate n 48 ++ ds) = decimal ds := by
  induction n with
  | zero => rfl
  | succ n ih =>
    rw [List.replicate_succ, List.cons_append, decimal, ih]
    simp

theorem exWords : WordsOk exExt := by
  intro c w h
  simp only [exExt]
  rw [if_neg, if_neg]
  · intro e; simp only [List.cons.injEq] at e; rw [e.1] at h; exact absurd h (by decide)
  · intro e; simp only [List.cons.injEq] at e; rw [e.1] at h; exact absurd h (by decide)

/-- `0012k;` is 12288. -/
example : lex exExt {} [48, 48, 49, 50, 107, 59] = ([.number 12288, .semicolon], none) := by
  have := number_partial exExt exWords 0 [48, 48, 49, 50] [107] 1024 (by decide) (by decide) (by decide) 59 []
    (by decide) (by decide)
  refine Eq.trans this ?_
  rw [lex_eq_lexN _ 3 _ _ (by decide)]
  have e : decimal [48, 48, 49, 50] = 12 := by decide
  rw [e]
  rfl

set_option maxRecDepth 4000 in
/-- `18446744073709551616;` is not a number. -/
example : ([49, 56, 52, 52, 54, 55, 52, 52, 48, 55, 51, 55, 48, 57, 53, 53, 49, 54, 49, 54] : List UInt8).all digit
    ∧ 2 ^ 64 ≤ decimal [49, 56, 52, 52, 54, 55, 52, 52, 48, 55, 51, 55, 48, 57, 53, 53, 49, 54, 49, 54] := by decide

/-! ## C36: comments -/

/-- C36.  A comment in brackets, at any place outside strings and other comments, is like a space. -/
theorem bracket_comment (x : Ext W F) (p c rest : List UInt8) (s : St) (ts : List (Token W F))
    (hp : final x {} p = some (s, ts)) (hs : s.mode = .none) (hc : ∀ u v, c ≠ u ++ 42 :: 47 :: v) :
    lex x {} (p ++ 47 :: 42 :: (c ++ 42 :: 47 :: rest)) = lex x {} (p ++ 32 :: rest) := by
  rw [lex_append x 47 _ (by decide) p.length p (Nat.le_refl _) hp hs,
    lex_append x 32 _ (by decide) p.length p (Nat.le_refl _) hp hs, comment_here x s hs c rest hc]

/-- C36.  A comment up to the end of the line is like the end of the line. -/
theorem hash_comment (x : Ext W F) (p c rest : List UInt8) (s : St) (ts : List (Token W F))
    (hp : final x {} p = some (s, ts)) (hs : s.mode = .none) (hc : 10 ∉ c) :
    lex x {} (p ++ 35 :: (c ++ 10 :: rest)) = lex x {} (p ++ 10 :: rest) := by
  rw [lex_append x 35 _ (by decide) p.length p (Nat.le_refl _) hp hs,
    lex_append x 10 _ (by decide) p.length p (Nat.le_refl _) hp hs, hash_here x s hs c rest hc]

/-- `keep` with a comment that contains `/` and `*` before the semicolon: the prefix `keep` is outside strings. -/
example : final exExt {} [107, 101, 101, 112] = some (⟨[107, 101, 101, 112], false, 112, .none⟩, []) := by
  rw [final_go exExt (k := 0) (s' := ⟨[107], false, 107, .none⟩) (ts := []) rfl]
  simp only [List.drop_zero]
  rw [final_go exExt (k := 0) (s' := ⟨[107, 101], false, 101, .none⟩) (ts := []) rfl]
  simp only [List.drop_zero]
  rw [final_go exExt (k := 0) (s' := ⟨[107, 101, 101], false, 101, .none⟩) (ts := []) rfl]
  simp only [List.drop_zero]
  rw [final_go exExt (k := 0) (s' := ⟨[107, 101, 101, 112], false, 112, .none⟩) (ts := []) rfl]
  simp [final_nil]

example : lex exExt {} ([107, 101, 101, 112] ++ 47 :: 42 :: ([47, 34, 42, 42] ++ 42 :: 47 :: [59]))
    = ([.ident 1, .semicolon], none) := by
  rw [lex_eq_lexN _ 20 _ _ (by decide)]; decide

/-! ## C51: the end of the script -/

theorem script_end (x : Ext W F) : ∀ (n : Nat) (p : List UInt8), p.length ≤ n →
    ∀ {s s' : St} {ts : List (Token W F)}, final x s p = some (s', ts) → s'.mode = .none →
    lex x s p = (ts, none) ∧ lex x s (p ++ [10]) = (ts ++ current x s', none)
  | n, p, hn, s, s', ts, hf, hm => by
    constructor
    · induction n generalizing p s ts with
      | zero =>
        rw [List.length_eq_zero_iff.1 (Nat.le_zero.1 hn), final_nil] at hf
        cases hf
        rw [List.length_eq_zero_iff.1 (Nat.le_zero.1 hn), lex_nil x _ hm]
      | succ n ih =>
        cases p with
        | nil =>
          rw [final_nil] at hf
          cases hf
          rw [lex_nil x _ hm]
        | cons ch rest =>
          cases hs : step x s ch rest with
          | fail e => rw [final_fail x hs] at hf; cases hf
          | go s1 k t1 =>
            rw [final_go x hs] at hf
            cases hf1 : final x s1 (rest.drop k) with
            | none => rw [hf1] at hf; cases hf
            | some q =>
              rw [hf1] at hf
              obtain ⟨q1, q2⟩ := q
              simp only [Option.map_some, Option.some.injEq, Prod.mk.injEq] at hf
              obtain ⟨rfl, rfl⟩ := hf
              rw [lex_go x hs, ih (rest.drop k) (by simp at hn ⊢; omega) s1 q2 hf1]
    · rw [lex_append x 10 [] (by decide) n p hn hf hm, lex_blank x s' 10 [] hm (by decide),
        lex_nil x _ (by rw [reset_mode, hm])]
      simp

/-- C51, as far as it holds: if no word is pending at the end of the script, which is outside strings and comments,
the script has the same tokens with and without a final line feed. -/
theorem script_end_partial (x : Ext W F) (p : List UInt8) (s : St) (ts : List (Token W F))
    (hf : final x {} p = some (s, ts)) (hm : s.mode = .none) (hb : s.buf = []) :
    lex x {} (p ++ [10]) = lex x {} p := by
  have h := script_end x p.length p (Nat.le_refl _) hf hm
  rw [h.1, h.2]
  simp [current, hb]

example : final exExt {} [125] = some (⟨[], false, 125, .none⟩, [.curlyClose]) := by
  rw [final_go exExt (k := 0) (s' := ⟨[], false, 125, .none⟩) (ts := [.curlyClose]) rfl]
  simp [final_nil]

/-- C51 fails: in the script `keep` the word is dropped, without an error; with a line feed it is there. -/
theorem last_word_dropped :
    lex exExt {} [107, 101, 101, 112] = ([], none) ∧ lex exExt {} [107, 101, 101, 112, 10] = ([.ident 1], none) := by
  constructor
  · rw [lex_eq_lexN _ 4 _ _ (by decide)]; decide
  · rw [lex_eq_lexN _ 5 _ _ (by decide)]; decide

end Sieve.Lex
