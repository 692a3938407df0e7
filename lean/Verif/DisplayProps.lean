import Verif.DisplayModel

/-!
# C112: the text of an error says what is wrong, and where
-/

namespace Sieve.Display

/-! ## Specification -/

/-- The end of a quoted string can be seen, and so can what is quoted. -/
structure Debug.Clear (d : Debug) : Prop where
  str : ∀ a b x y, d.str a ++ x = d.str b ++ y → a = b ∧ x = y
  chr : ∀ a b, d.chr a = d.chr b → a = b
  /-- a character is between single quotes -/
  chrQuote : ∀ a, ∃ t, d.chr a = '\'' :: t

/-- The number that digits stand for. -/
def number (b : Nat) (t : Text) : Nat := t.foldl (fun n c => n * b + (if c.toNat < 58 then c.toNat - 48 else c.toNat - 87)) 0

/-- The digits of a number in base ten. -/
def IsDecimal (n : Nat) (t : Text) : Prop := t ≠ [] ∧ (∀ c ∈ t, c.isDigit = true) ∧ number 10 t = n

/-- The place is at the end of the text. -/
def Located (t : Text) (line column : Nat) : Prop :=
  ∃ w l c, t = w ++ lit " at line " ++ l ++ lit ", column " ++ c ++ lit "." ∧ IsDecimal line l ∧ IsDecimal column c

/-! ## Numbers -/

theorem number_append (b : Nat) (s t : Text) (c : Char) (h : t = s ++ [c]) :
    number b t = number b s * b + (if c.toNat < 58 then c.toNat - 48 else c.toNat - 87) := by
  subst h
  simp [number]

theorem digit_val : ∀ n < 16, (if (digit n).toNat < 58 then (digit n).toNat - 48 else (digit n).toNat - 87) = n := by decide

theorem number_digits (b : Nat) (hb : b ≤ 14) (n : Nat) : number (b + 2) (digits b n) = n := by
  induction n using Nat.strongRecOn with
  | ind n ih =>
    rw [digits]
    split
    · rename_i h
      have := digit_val n (by omega)
      simpa [number] using this
    · rename_i h
      rw [number_append (b + 2) _ _ _ rfl, ih _ (Nat.div_lt_self (by omega) (by omega)),
        digit_val _ (Nat.lt_of_lt_of_le (Nat.mod_lt _ (by omega)) (by omega))]
      exact Nat.div_add_mod' n (b + 2)

theorem digits_isDigit (n : Nat) : ∀ c ∈ digits 8 n, c.isDigit = true := by
  have hd : ∀ n < 10, (digit n).isDigit = true := by decide
  induction n using Nat.strongRecOn with
  | ind n ih =>
    rw [digits]
    split
    · rename_i h
      intro c hc
      rw [List.mem_singleton] at hc
      exact hc ▸ hd n h
    · intro c hc
      rw [List.mem_append, List.mem_singleton] at hc
      rcases hc with hc | rfl
      · exact ih _ (Nat.div_lt_self (by omega) (by omega)) c hc
      · exact hd _ (Nat.mod_lt _ (by omega))

theorem digits_ne_nil (b n : Nat) : digits b n ≠ [] := by
  rw [digits]
  split <;> simp

theorem decimal_isDecimal (n : Nat) : IsDecimal n (decimal n) :=
  ⟨digits_ne_nil 8 n, digits_isDigit n, number_digits 8 (by omega) n⟩

theorem decimal_inj {m n : Nat} (h : decimal m = decimal n) : m = n := by
  rw [← number_digits 8 (by omega) m, ← number_digits 8 (by omega) n]
  exact congrArg _ h

theorem number_hex4 (n : Nat) : number 16 (hex4 n) = n := by
  have key : ∀ k (t : Text), number 16 (List.replicate k '0' ++ t) = number 16 t := by
    intro k t
    induction k with
    | zero => rfl
    | succ k ih => rw [List.replicate_succ, List.cons_append]; exact ih
  rw [hex4, key]
  exact number_digits 14 (by omega) n

/-! ## Places -/

theorem split_last {s : Char} : ∀ {a b x y : Text}, a ++ s :: x = b ++ s :: y → s ∉ x → s ∉ y → a = b ∧ x = y := by
  intro a
  induction a with
  | nil =>
    intro b x y h hx hy
    cases b with
    | nil => simpa using h
    | cons c b =>
      simp only [List.nil_append, List.cons_append, List.cons.injEq] at h
      exact absurd (h.2 ▸ List.mem_append_right _ List.mem_cons_self) hx
  | cons c a ih =>
    intro b x y h hx hy
    cases b with
    | nil =>
      simp only [List.nil_append, List.cons_append, List.cons.injEq] at h
      exact absurd (h.2 ▸ List.mem_append_right _ List.mem_cons_self) hy
    | cons c' b =>
      simp only [List.cons_append, List.cons.injEq] at h
      obtain ⟨h1, h2⟩ := ih h.2 hx hy
      exact ⟨by rw [h.1, h1], h2⟩

theorem decimal_space (n : Nat) (c : Char) (hc : c.isDigit = false) : c ∉ decimal n := by
  intro h
  rw [digits_isDigit n c h] at hc
  cases hc

/-- The place can be read from the end of a text, and so can what comes before. -/
theorem place_clear {w w' : Text} {l l' c c' : Nat}
    (h : w ++ lit " at line " ++ decimal l ++ lit ", column " ++ decimal c ++ lit "." =
      w' ++ lit " at line " ++ decimal l' ++ lit ", column " ++ decimal c' ++ lit ".") : w = w' ∧ l = l' ∧ c = c' := by
  have h1 := List.append_cancel_right h
  have e : lit ", column " = lit ", column" ++ [' '] := by decide +kernel
  have e2 : lit " at line " = lit " at line" ++ [' '] := by decide +kernel
  rw [e, ← List.append_assoc _ _ [' '], ← List.append_assoc _ _ [' '], List.append_assoc _ [' '], List.append_assoc _ [' ']] at h1
  obtain ⟨h2, h3⟩ := split_last (s := ' ') (x := decimal c) (y := decimal c') h1 (decimal_space c _ (by decide))
    (decimal_space c' _ (by decide))
  have h4 := List.append_cancel_right h2
  rw [e2, ← List.append_assoc w, ← List.append_assoc w', List.append_assoc _ [' '], List.append_assoc _ [' ']] at h4
  obtain ⟨h5, h6⟩ := split_last (s := ' ') (x := decimal l) (y := decimal l') h4 (decimal_space l _ (by decide))
    (decimal_space l' _ (by decide))
  exact ⟨List.append_cancel_right h5, decimal_inj h6, decimal_inj h3⟩

/-! ## What is wrong -/

/-- What the text of a kind begins with. -/
def heads : List String :=
  ["Invalid character '", "Invalid number \"", "Match variable ", "Invalid Unicode sequence ", "Invalid namespace \"",
    "Invalid regular expression \"", "Invalid expression ", "Invalid UTF-8 string", "Invalid header name", "Invalid Arguments",
    "Invalid Address", "Invalid URI", "Invalid envelope \"", "Unterminated string", "Unterminated comment",
    "Unterminated multi-line string", "Unterminated block", "Sieve script is too large", "String is too long",
    "Variable name is too long", "Variable \"", "Header value is too long", "Expected a constant string", "Expected token \"",
    "Unexpected end of file", "Too many nested blocks", "Too many nested tests", "Too many nested foreverypart blocks",
    "Too many includes", "Label \"", "Label \"", "Break used outside of foreverypart loop", "Continue used outside of while loop",
    "Comparator \"", "Duplicated argument", "Undeclared capability '", "Missing tag \""]

def index : Kind → Nat
  | .invalidCharacter _ => 0 | .invalidNumber _ => 1 | .invalidMatchVariable _ => 2 | .invalidUnicodeSequence _ => 3
  | .invalidNamespace _ => 4 | .invalidRegex _ => 5 | .invalidExpression _ => 6 | .invalidUtf8String => 7
  | .invalidHeaderName => 8 | .invalidArguments => 9 | .invalidAddress => 10 | .invalidURI => 11 | .invalidEnvelope _ => 12
  | .unterminatedString => 13 | .unterminatedComment => 14 | .unterminatedMultiline => 15 | .unterminatedBlock => 16
  | .scriptTooLong => 17 | .stringTooLong => 18 | .variableTooLong => 19 | .variableIsLocal _ => 20 | .headerTooLong => 21
  | .expectedConstantString => 22 | .unexpectedToken _ _ => 23 | .unexpectedEOF => 24 | .tooManyNestedBlocks => 25
  | .tooManyNestedTests => 26 | .tooManyNestedForEveryParts => 27 | .tooManyIncludes => 28 | .labelAlreadyDefined _ => 29
  | .labelUndefined _ => 30 | .breakOutsideLoop => 31 | .continueOutsideLoop => 32 | .unsupportedComparator _ => 33
  | .duplicatedParameter => 34 | .undeclaredCapability _ => 35 | .missingTag _ => 36

def head (i : Nat) : Text := lit (heads.getD i "")

/-- No head begins another one, but those of labels. -/
theorem heads_free : ∀ i < 37, ∀ j < 37, head i <+: head j → i = j ∨ i = 29 ∧ j = 30 ∨ i = 30 ∧ j = 29 := by
  decide +kernel

theorem index_lt (k : Kind) : index k < 37 := by
  cases k <;> simp [index]

theorem head_what (d : Debug) (hd : d.Clear) (k : Kind) : ∃ t, what d k = head (index k) ++ t := by
  cases k with
  | invalidCharacter b =>
    obtain ⟨t, ht⟩ := hd.chrQuote b
    refine ⟨t, ?_⟩
    rewrite [index, show head 0 = lit "Invalid character " ++ ['\''] from by decide +kernel]
    simp only [what, ht, List.append_assoc, List.cons_append, List.nil_append]
  | invalidNumber s =>
    refine ⟨d.str s, ?_⟩
    rewrite [index, show head 1 = lit "Invalid number " ++ ['"'] from by decide +kernel]
    simp only [what, quoted, List.append_assoc, List.cons_append, List.nil_append]
  | invalidNamespace s =>
    refine ⟨d.str s, ?_⟩
    rewrite [index, show head 4 = lit "Invalid namespace " ++ ['"'] from by decide +kernel]
    simp only [what, quoted, List.append_assoc, List.cons_append, List.nil_append]
  | invalidRegex s =>
    refine ⟨d.str s, ?_⟩
    rewrite [index, show head 5 = lit "Invalid regular expression " ++ ['"'] from by decide +kernel]
    simp only [what, quoted, List.append_assoc, List.cons_append, List.nil_append]
  | invalidEnvelope s =>
    refine ⟨d.str s, ?_⟩
    rewrite [index, show head 12 = lit "Invalid envelope " ++ ['"'] from by decide +kernel]
    simp only [what, quoted, List.append_assoc, List.cons_append, List.nil_append]
  | variableIsLocal s =>
    refine ⟨d.str s ++ lit " was already defined as local", ?_⟩
    rewrite [index, show head 20 = lit "Variable " ++ ['"'] from by decide +kernel]
    simp only [what, quoted, List.append_assoc, List.cons_append, List.nil_append]
  | unexpectedToken e f =>
    refine ⟨d.str e ++ (lit " but found " ++ quoted d f), ?_⟩
    rewrite [index, show head 23 = lit "Expected token " ++ ['"'] from by decide +kernel]
    simp only [what, quoted, List.append_assoc, List.cons_append, List.nil_append]
  | labelAlreadyDefined s =>
    refine ⟨d.str s ++ lit " already defined", ?_⟩
    rewrite [index, show head 29 = lit "Label " ++ ['"'] from by decide +kernel]
    simp only [what, quoted, List.append_assoc, List.cons_append, List.nil_append]
  | labelUndefined s =>
    refine ⟨d.str s ++ lit " does not exist", ?_⟩
    rewrite [index, show head 30 = lit "Label " ++ ['"'] from by decide +kernel]
    simp only [what, quoted, List.append_assoc, List.cons_append, List.nil_append]
  | unsupportedComparator s =>
    refine ⟨d.str s ++ lit " is not supported", ?_⟩
    rewrite [index, show head 33 = lit "Comparator " ++ ['"'] from by decide +kernel]
    simp only [what, quoted, List.append_assoc, List.cons_append, List.nil_append]
  | missingTag s =>
    refine ⟨d.str s, ?_⟩
    rewrite [index, show head 36 = lit "Missing tag " ++ ['"'] from by decide +kernel]
    simp only [what, quoted, List.append_assoc, List.cons_append, List.nil_append]
  | invalidMatchVariable n =>
    refine ⟨decimal n ++ lit " out of range", ?_⟩
    rewrite [index, show head 2 = lit "Match variable " from by decide +kernel]
    simp only [what, List.append_assoc]
  | invalidUnicodeSequence n =>
    refine ⟨hex4 n, ?_⟩
    rewrite [index, show head 3 = lit "Invalid Unicode sequence " from by decide +kernel]
    simp only [what, List.append_assoc]
  | invalidExpression s =>
    refine ⟨s, ?_⟩
    rewrite [index, show head 6 = lit "Invalid expression " from by decide +kernel]
    simp only [what, List.append_assoc]
  | undeclaredCapability s =>
    refine ⟨s ++ lit "'", ?_⟩
    rewrite [index, show head 35 = lit "Undeclared capability '" from by decide +kernel]
    simp only [what, List.append_assoc]
  | invalidUtf8String => exact ⟨[], by rewrite [index, show head 7 = lit "Invalid UTF-8 string" from by decide +kernel, what, List.append_nil]; rfl⟩
  | invalidHeaderName => exact ⟨[], by rewrite [index, show head 8 = lit "Invalid header name" from by decide +kernel, what, List.append_nil]; rfl⟩
  | invalidArguments => exact ⟨[], by rewrite [index, show head 9 = lit "Invalid Arguments" from by decide +kernel, what, List.append_nil]; rfl⟩
  | invalidAddress => exact ⟨[], by rewrite [index, show head 10 = lit "Invalid Address" from by decide +kernel, what, List.append_nil]; rfl⟩
  | invalidURI => exact ⟨[], by rewrite [index, show head 11 = lit "Invalid URI" from by decide +kernel, what, List.append_nil]; rfl⟩
  | unterminatedString => exact ⟨[], by rewrite [index, show head 13 = lit "Unterminated string" from by decide +kernel, what, List.append_nil]; rfl⟩
  | unterminatedComment => exact ⟨[], by rewrite [index, show head 14 = lit "Unterminated comment" from by decide +kernel, what, List.append_nil]; rfl⟩
  | unterminatedMultiline => exact ⟨[], by rewrite [index, show head 15 = lit "Unterminated multi-line string" from by decide +kernel, what, List.append_nil]; rfl⟩
  | unterminatedBlock => exact ⟨[], by rewrite [index, show head 16 = lit "Unterminated block" from by decide +kernel, what, List.append_nil]; rfl⟩
  | scriptTooLong => exact ⟨[], by rewrite [index, show head 17 = lit "Sieve script is too large" from by decide +kernel, what, List.append_nil]; rfl⟩
  | stringTooLong => exact ⟨[], by rewrite [index, show head 18 = lit "String is too long" from by decide +kernel, what, List.append_nil]; rfl⟩
  | variableTooLong => exact ⟨[], by rewrite [index, show head 19 = lit "Variable name is too long" from by decide +kernel, what, List.append_nil]; rfl⟩
  | headerTooLong => exact ⟨[], by rewrite [index, show head 21 = lit "Header value is too long" from by decide +kernel, what, List.append_nil]; rfl⟩
  | expectedConstantString => exact ⟨[], by rewrite [index, show head 22 = lit "Expected a constant string" from by decide +kernel, what, List.append_nil]; rfl⟩
  | unexpectedEOF => exact ⟨[], by rewrite [index, show head 24 = lit "Unexpected end of file" from by decide +kernel, what, List.append_nil]; rfl⟩
  | tooManyNestedBlocks => exact ⟨[], by rewrite [index, show head 25 = lit "Too many nested blocks" from by decide +kernel, what, List.append_nil]; rfl⟩
  | tooManyNestedTests => exact ⟨[], by rewrite [index, show head 26 = lit "Too many nested tests" from by decide +kernel, what, List.append_nil]; rfl⟩
  | tooManyNestedForEveryParts => exact ⟨[], by rewrite [index, show head 27 = lit "Too many nested foreverypart blocks" from by decide +kernel, what, List.append_nil]; rfl⟩
  | tooManyIncludes => exact ⟨[], by rewrite [index, show head 28 = lit "Too many includes" from by decide +kernel, what, List.append_nil]; rfl⟩
  | breakOutsideLoop => exact ⟨[], by rewrite [index, show head 31 = lit "Break used outside of foreverypart loop" from by decide +kernel, what, List.append_nil]; rfl⟩
  | continueOutsideLoop => exact ⟨[], by rewrite [index, show head 32 = lit "Continue used outside of while loop" from by decide +kernel, what, List.append_nil]; rfl⟩
  | duplicatedParameter => exact ⟨[], by rewrite [index, show head 34 = lit "Duplicated argument" from by decide +kernel, what, List.append_nil]; rfl⟩

theorem quoted_inj {d : Debug} (hd : d.Clear) {a b x y : Text} (h : quoted d a ++ x = quoted d b ++ y) : a = b ∧ x = y := by
  simp only [quoted, List.cons_append, List.cons.injEq, true_and] at h
  exact hd.str _ _ _ _ h

theorem quoted_inj' {d : Debug} (hd : d.Clear) {a b : Text} (h : quoted d a = quoted d b) : a = b :=
  (quoted_inj hd (x := []) (y := []) (by rw [h])).1

theorem labels_differ (d : Debug) (hd : d.Clear) (a b : Text) : what d (.labelAlreadyDefined a) ≠ what d (.labelUndefined b) := by
  intro h
  simp only [what, List.append_assoc] at h
  have := (quoted_inj hd (List.append_cancel_left h)).2
  revert this
  decide +kernel

/-- What is wrong can be read from its text. -/
theorem what_inj (d : Debug) (hd : d.Clear) {k k' : Kind} (h : what d k = what d k') : k = k' := by
  obtain ⟨t, ht⟩ := head_what d hd k
  obtain ⟨t', ht'⟩ := head_what d hd k'
  have hp : head (index k) <+: head (index k') ∨ head (index k') <+: head (index k) := by
    apply List.prefix_or_prefix_of_prefix (l₃ := what d k)
    · exact ⟨t, ht.symm⟩
    · exact ⟨t', by rw [h, ht']⟩
  have hi : index k = index k' ∨ index k = 29 ∧ index k' = 30 ∨ index k = 30 ∧ index k' = 29 := by
    rcases hp with hp | hp
    · exact heads_free _ (index_lt k) _ (index_lt k') hp
    · rcases heads_free _ (index_lt k') _ (index_lt k) hp with e | e | e
      · exact .inl e.symm
      · exact .inr (.inr ⟨e.2, e.1⟩)
      · exact .inr (.inl ⟨e.2, e.1⟩)
  rcases hi with hi | hi | hi
  · clear ht ht' hp
    cases k <;> cases k' <;> first
      | (exfalso; simp only [index] at hi; omega)
      | rfl
      | skip
    case invalidCharacter b b' => rw [hd.chr _ _ (List.append_cancel_left h)]
    case invalidMatchVariable n n' => rw [decimal_inj (List.append_cancel_left (List.append_cancel_right h))]
    case invalidUnicodeSequence n n' =>
      have := congrArg (number 16) (List.append_cancel_left h)
      rw [number_hex4, number_hex4] at this
      rw [this]
    case invalidExpression s s' => rw [List.append_cancel_left h]
    case undeclaredCapability s s' => rw [List.append_cancel_left (List.append_cancel_right h)]
    case unexpectedToken e f e' f' =>
      simp only [what, List.append_assoc] at h
      obtain ⟨rfl, h2⟩ := quoted_inj hd (List.append_cancel_left h)
      rw [quoted_inj' hd (List.append_cancel_left h2)]
    case invalidNumber s s' => rw [quoted_inj' hd (List.append_cancel_left h)]
    case invalidNamespace s s' => rw [quoted_inj' hd (List.append_cancel_left h)]
    case invalidRegex s s' => rw [quoted_inj' hd (List.append_cancel_left h)]
    case invalidEnvelope s s' => rw [quoted_inj' hd (List.append_cancel_left h)]
    case missingTag s s' => rw [quoted_inj' hd (List.append_cancel_left h)]
    case variableIsLocal s s' => rw [quoted_inj' hd (List.append_cancel_left (List.append_cancel_right h))]
    case labelAlreadyDefined s s' => rw [quoted_inj' hd (List.append_cancel_left (List.append_cancel_right h))]
    case labelUndefined s s' => rw [quoted_inj' hd (List.append_cancel_left (List.append_cancel_right h))]
    case unsupportedComparator s s' => rw [quoted_inj' hd (List.append_cancel_left (List.append_cancel_right h))]
  · cases k <;> simp only [index] at hi <;> first | omega | skip
    cases k' <;> simp only [index] at hi <;> first | omega | skip
    exact absurd h (labels_differ d hd _ _)
  · cases k <;> simp only [index] at hi <;> first | omega | skip
    cases k' <;> simp only [index] at hi <;> first | omega | skip
    exact absurd h.symm (labels_differ d hd _ _)

/-! ## C112 -/

/-- **C112** The text of a compile error ends with the line and the column of the error. -/
theorem compile_error_place (d : Debug) (e : CompileError) : Located (e.text d) e.line e.column :=
  ⟨_, _, _, rfl, decimal_isDecimal _, decimal_isDecimal _⟩

/-- **C112** Compile errors with the same text are the same: of one kind, about the same thing, and at the same place. -/
theorem compile_error_text (d : Debug) (hd : d.Clear) (e e' : CompileError) (h : e.text d = e'.text d) : e = e' := by
  obtain ⟨hw, hl, hc⟩ := place_clear h
  have hk := what_inj d hd hw
  cases e
  cases e'
  simp only at hk hl hc
  rw [hk, hl, hc]

/-- A place is read from a text in one way only. -/
theorem located_unique {t : Text} {l l' c c' : Nat} (h : Located t l c) (h' : Located t l' c') : l = l' ∧ c = c' := by
  obtain ⟨w, tl, tc, rfl, ⟨-, hl, rfl⟩, ⟨-, hc, rfl⟩⟩ := h
  obtain ⟨w', tl', tc', e, ⟨-, hl', rfl⟩, ⟨-, hc', rfl⟩⟩ := h'
  have h1 := List.append_cancel_right e
  have sp : ∀ (t : Text), (∀ c ∈ t, c.isDigit = true) → ' ' ∉ t := fun t ht hm => absurd (ht _ hm) (by decide)
  have e : lit ", column " = lit ", column" ++ [' '] := by decide +kernel
  have e2 : lit " at line " = lit " at line" ++ [' '] := by decide +kernel
  rw [e, ← List.append_assoc _ _ [' '], ← List.append_assoc _ _ [' '], List.append_assoc _ [' '], List.append_assoc _ [' ']] at h1
  obtain ⟨h2, h3⟩ := split_last (s := ' ') (x := tc) (y := tc') h1 (sp _ hc) (sp _ hc')
  have h4 := List.append_cancel_right h2
  rw [e2, ← List.append_assoc w, ← List.append_assoc w', List.append_assoc _ [' '], List.append_assoc _ [' ']] at h4
  obtain ⟨h5, h6⟩ := split_last (s := ' ') (x := tl) (y := tl') h4 (sp _ hl) (sp _ hl')
  rw [h6, h3]
  exact ⟨rfl, rfl⟩

theorem apart {a b x y : Text} (h : (¬ a <+: b) ∧ ¬ b <+: a) : a ++ x ≠ b ++ y := by
  intro e
  rcases List.prefix_or_prefix_of_prefix ⟨x, e⟩ ⟨y, rfl⟩ with hp | hp
  · exact h.1 hp
  · exact h.2 hp

theorem apart_end {a b x y : Text} (h : (¬ a <:+ b) ∧ ¬ b <:+ a) : x ++ a ≠ y ++ b := by
  intro e
  rcases List.suffix_or_suffix_of_suffix ⟨x, e⟩ ⟨y, rfl⟩ with hp | hp
  · exact h.1 hp
  · exact h.2 hp

/-- **C112** Runtime errors with the same text are the same.  What is missing: that the text is not empty and that the place
in it is right, which the code violates (`too_many_includes_silent`, `invalid_instruction_swapped`). -/
theorem runtime_error_text_partial (d : Debug) (hd : d.Clear) (e e' : RuntimeError) (h : e.text d = e'.text d) : e = e' := by
  have hn : ∀ {s : String} {x : Text}, lit s ≠ [] → lit s ++ x ≠ [] := fun h e => h (List.append_eq_nil_iff.1 e).1
  have full : lit "Script exceeded the maximum number of instructions allowed to execute." =
      lit "Script exceeded the maximum number of instructions allowed to execute." ++ [] := (List.append_nil _).symm
  cases e <;> cases e' <;> simp only [RuntimeError.text] at h
  case tooManyIncludes.tooManyIncludes => rfl
  case cpuLimitReached.cpuLimitReached => rfl
  case invalidInstruction.invalidInstruction n l c n' l' c' =>
    obtain ⟨hw, rfl, rfl⟩ := place_clear h
    rw [quoted_inj' hd (List.append_cancel_left hw)]
  case scriptErrorMessage.scriptErrorMessage s s' =>
    rw [quoted_inj' hd (List.append_cancel_left (List.append_cancel_right h))]
  case capabilityNotAllowed.capabilityNotAllowed s s' => rw [List.append_cancel_left (List.append_cancel_right h)]
  case capabilityNotSupported.capabilityNotSupported s s' => rw [List.append_cancel_left (List.append_cancel_right h)]
  case capabilityNotAllowed.capabilityNotSupported s s' => exact absurd h (apart_end (by decide +kernel))
  case capabilityNotSupported.capabilityNotAllowed s s' => exact absurd h (apart_end (by decide +kernel))
  all_goals
    exfalso
    try simp only [List.append_assoc] at h
    first
      | exact hn (by decide +kernel) h
      | exact hn (by decide +kernel) h.symm
      | exact apart (by decide +kernel) h
      | (rw [full] at h; exact apart (by decide +kernel) h)
      | (rw [full] at h; exact absurd h (by decide +kernel))

/-- **C112, the code disagrees** The text of an invalid instruction gives its column as the line, and its line as the column. -/
theorem invalid_instruction_swapped (d : Debug) (name : Text) (line column : Nat) (hne : line ≠ column) :
    Located (RuntimeError.text d (.invalidInstruction name line column)) column line ∧
    ¬ Located (RuntimeError.text d (.invalidInstruction name line column)) line column := by
  have h : Located (RuntimeError.text d (.invalidInstruction name line column)) column line :=
    ⟨_, _, _, rfl, decimal_isDecimal _, decimal_isDecimal _⟩
  exact ⟨h, fun h' => hne (located_unique h h').2⟩

/-- **C112, the code disagrees** The error of too many included scripts has no text at all. -/
theorem too_many_includes_silent (d : Debug) : RuntimeError.text d .tooManyIncludes = [] := rfl

/-! ## Cases that are met -/

/-- A quote and a backslash are written after a backslash. -/
def simple : Debug where
  str s := s.flatMap (fun c => if c = '"' ∨ c = '\\' then ['\\', c] else [c]) ++ ['"']
  chr b := ['\'', Char.ofNat b.toNat, '\'']

theorem simple_clear : simple.Clear where
  str := by
    intro a
    simp only [simple]
    induction a with
    | nil =>
      intro b x y h
      cases b with
      | nil => exact ⟨rfl, by simpa using h⟩
      | cons c b =>
        by_cases hc : c = '"' ∨ c = '\\'
        · simp [hc] at h
        · simp only [List.flatMap_nil, List.nil_append, List.flatMap_cons, if_neg hc, List.cons_append, List.cons.injEq] at h
          exact absurd (.inl h.1.symm) hc
    | cons c a ih =>
      intro b x y h
      cases b with
      | nil =>
        by_cases hc : c = '"' ∨ c = '\\'
        · simp [hc] at h
        · simp only [List.flatMap_nil, List.nil_append, List.flatMap_cons, if_neg hc, List.cons_append, List.cons.injEq] at h
          exact absurd (.inl h.1) hc
      | cons c' b =>
        by_cases hc : c = '"' ∨ c = '\\' <;> by_cases hc' : c' = '"' ∨ c' = '\\' <;>
          simp only [List.nil_append, List.flatMap_cons, hc, hc', if_true, if_false, List.cons_append,
            List.cons.injEq] at h
        · obtain ⟨rfl, e⟩ := ih b x y h.2.2
          exact ⟨by rw [h.2.1], e⟩
        · exact absurd (.inr h.1.symm) hc'
        · exact absurd (.inr h.1) hc
        · obtain ⟨rfl, e⟩ := ih b x y h.2
          exact ⟨by rw [h.1], e⟩
  chr := by
    intro a b h
    have : ∀ a b : Fin 256, Char.ofNat a = Char.ofNat b → a = b := by
      intro a b h
      have hv : ∀ a : Fin 256, (Char.ofNat a).toNat = a := by decide +kernel
      exact Fin.ext (by rw [← hv a, ← hv b, h])
    simp only [simple, List.cons.injEq, and_true, true_and] at h
    have := this ⟨a.toNat, a.toNat_lt⟩ ⟨b.toNat, b.toNat_lt⟩ h
    simp only [Fin.mk.injEq] at this
    exact UInt8.toNat_inj.1 this
  chrQuote := fun _ => ⟨_, rfl⟩

/-- An undefined label at line 12, column 7, and a sequence that is no character. -/
example : (CompileError.mk 12 7 (.labelUndefined (lit "a\"b"))).text simple =
    lit "Label \"a\\\"b\" does not exist at line 12, column 7." ∧
    (CompileError.mk 1 0 (.invalidUnicodeSequence 0xd8)).text simple =
      lit "Invalid Unicode sequence 00d8 at line 1, column 0." := by
  simp only [CompileError.text, what, quoted, simple, decimal, hex4]
  repeat (unfold digits; simp only [Nat.reduceLT, Nat.reduceAdd, Nat.reduceDiv, Nat.reduceMod, if_true, if_false])
  decide +kernel

example : ∃ d : Debug, d.Clear := ⟨simple, simple_clear⟩

/-- An instruction at line 3, column 9, is reported at line 9, column 3. -/
example : RuntimeError.text simple (.invalidInstruction (lit "foo") 3 9) =
    lit "Script executed invalid instruction \"foo\" at line 9, column 3." := by
  simp only [RuntimeError.text, quoted, simple, decimal]
  unfold digits
  decide +kernel

end Sieve.Display
