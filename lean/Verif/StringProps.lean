import Verif.StringDecode

/-!
# Strings: theorems
-/

namespace Sieve.Str

variable {V F : Type} [DecidableEq V] [DecidableEq F]

/-- Every text has exactly one reading once its encoded characters are replaced. -/
theorem decoded_exists_unique (s : Bytes) : ∃ d, Decoded s d ∧ ∀ d', Decoded s d' → d' = d := by
  have ex : ∀ (n : Nat) (s : Bytes), s.length ≤ n → ∃ d, Decoded s d := by
    intro n
    induction n with
    | zero => intro s h; rw [List.length_eq_zero_iff.mp (by omega : s.length = 0)]; exact ⟨[], .nil⟩
    | succ n ih =>
      intro s h
      cases s with
      | nil => exact ⟨[], .nil⟩
      | cons c t =>
        by_cases ht : NoToken EncodedChar (c :: t)
        · obtain ⟨d, hd⟩ := ih t (by simp at h; omega)
          exact ⟨c :: d, .keep ht hd⟩
        · unfold NoToken at ht
          push Not at ht
          obtain ⟨w, o, r, hw, e⟩ := ht
          have h0 := encoded_prefixFree.nonempty hw
          have hl : w.length ≠ 0 := fun hh => h0 (List.length_eq_zero_iff.mp hh)
          obtain ⟨d, hd⟩ := ih r (by
            have := congrArg List.length e
            simp at this h; omega)
          obtain ⟨k, code, body, b, h1, h2, h3, h4, rfl⟩ := hw
          rw [e]
          exact ⟨b ++ d, .token ⟨k, code, body, b, h1, h2, h3, h4, rfl⟩ hd⟩
  obtain ⟨d, hd⟩ := ex s.length s le_rfl
  exact ⟨d, hd, fun d' hd' => replaced_unique encoded_prefixFree hd' hd⟩

/-- C60: text without encoded characters is compiled to its reading with every variable reference replaced by the
variable and everything else kept, byte for byte; it is rejected exactly when a reference is an error.
The full claim would read names as RFC 5229 does (`hyphen_dropped`). -/
theorem variables_replaced_partial (x : Ext V F) (s : Bytes) (sg : List (Piece V)) :
    (∃ items, tokenize x false s = some items ∧ pieces x items = sg) ↔ Expanded x s sg := by
  have hm := plain_meets x s
  show (∃ items, tokenizePlain x s = some items ∧ pieces x items = sg) ↔ _
  cases hr : tokenizePlain x s with
  | none =>
    rw [hr] at hm
    exact ⟨(by rintro ⟨_, h, _⟩; cases h), fun h => absurd h (hm sg)⟩
  | some items =>
    rw [hr] at hm
    obtain ⟨sg', h1, h2⟩ := hm
    rw [List.nil_append] at h2
    constructor
    · rintro ⟨_, h, rfl⟩
      cases h
      rw [h2]; exact h1
    · intro h
      exact ⟨items, rfl, by rw [h2]; exact replaced_unique (reference_prefixFree x) h1 h⟩

/-- C61: a string is compiled to its reading with encoded characters replaced first and variable references second,
and rejected exactly when there is no such reading.  Left out are two kinds of malformed encoded characters:
`bad_last_number` and `malformed_unicode_rejected` show what happens to them. -/
theorem string_read_partial (x : Ext V F) (s : Bytes) (h1 : ¬ Spoiled s) (h2 : ¬ BadUnicode s) (sg : List (Piece V)) :
    (∃ items, tokenize x true s = some items ∧ pieces x items = sg) ↔ ∃ d, Decoded s d ∧ Expanded x d sg := by
  have hm : Decodes x (BadUnicode s) (tokenize x true s) [] [] s :=
    (decode_loop x s h1 s [] .new rfl).1 [] [] [] ⟨rfl, rfl, rfl, Or.inr ⟨by simp [St.new], rfl, rfl⟩⟩
  cases hr : tokenize x true s with
  | none =>
    rw [hr] at hm
    refine ⟨(by rintro ⟨_, h, _⟩; cases h), ?_⟩
    rintro ⟨d, hd, he⟩
    exact absurd he ((hm.2 rfl).resolve_left h2 d sg hd)
  | some items =>
    rw [hr] at hm
    obtain ⟨d, sg', hd, he, hp⟩ := hm.1 items rfl
    rw [List.nil_append] at he hp
    constructor
    · rintro ⟨_, h, rfl⟩
      cases h
      exact ⟨d, hd, by rw [hp]; exact he⟩
    · rintro ⟨d', hd', he'⟩
      have := replaced_unique encoded_prefixFree hd hd'
      subst this
      exact ⟨items, rfl, by rw [hp]; exact replaced_unique (reference_prefixFree x) he he'⟩

/-- C61: a string that is accepted has a reading, whatever its numbers are. -/
theorem accepted_read_partial (x : Ext V F) (s : Bytes) (h1 : ¬ Spoiled s) {items : List (Item V F)}
    (h : tokenize x true s = some items) : ∃ d, Decoded s d ∧ Expanded x d (pieces x items) := by
  have hm : Decodes x (BadUnicode s) (tokenize x true s) [] [] s :=
    (decode_loop x s h1 s [] .new rfl).1 [] [] [] ⟨rfl, rfl, rfl, Or.inr ⟨by simp [St.new], rfl, rfl⟩⟩
  obtain ⟨d, sg', hd, he, hp⟩ := hm.1 items h
  exact ⟨d, hd, by rw [hp]; exact he⟩

/-- The conversions of values: printing undoes them, and the value of a variable that is not set prints as nothing. -/
structure Values.Prints {R : Type} (x : Ext V F) (e : Values V F R) : Prop where
  str : ∀ t, e.toText (e.str t) = t
  int : ∀ n, e.toText (e.int n) = x.showInt n
  flt : ∀ f, e.toText (e.flt f) = x.showFlt f
  default : e.toText e.default = []

/-- C62: the text of a string at run time is its pieces, one after the other, with the current values of the variables;
a variable that is not set counts as the empty text. -/
theorem string_value {R : Type} (x : Ext V F) (e : Values V F R) (he : e.Prints x) (items : List (Item V F)) :
    e.toText (evalValue x e items) =
      textOf (fun v => match e.get v with | some r => e.toText r | none => []) (pieces x items) := by
  have bytes : ∀ (t : Bytes) (l : List (Piece V)) (σ : V → Bytes), textOf σ (t.map .byte ++ l) = t ++ textOf σ l := by
    intro t l σ
    induction t with
    | nil => rfl
    | cons c t ih => simp [textOf, ih]
  have key : ∀ items : List (Item V F), textOf (fun v => match e.get v with | some r => e.toText r | none => [])
      (pieces x items) = items.flatMap (evalItem x e) := by
    intro items
    induction items with
    | nil => rfl
    | cons i items ih =>
      have hp : pieces x (i :: items) = i.pieces x ++ pieces x items := rfl
      rw [hp, List.flatMap_cons, ← ih]
      cases i with
      | text t => exact bytes _ _ _
      | int n => exact bytes _ _ _
      | flt f => exact bytes _ _ _
      | var v => rfl
  rw [key]
  unfold evalValue
  split
  · rw [he.str]; simp [evalItem]
  · rw [he.int]; simp [evalItem]
  · rw [he.flt]; simp [evalItem]
  · rename_i v
    cases hv : e.get v with
    | none => simp [evalItem, hv, he.default]
    | some r => simp [evalItem, hv]
  · rw [he.str]

/-- C62: text with no dollar sign before a brace stands for itself. -/
theorem plain_text (x : Ext V F) (s : Bytes) (h : ∀ a b, s ≠ a ++ 36 :: 123 :: b) :
    ∃ items, tokenize x true s = some items ∧ pieces x items = s.map .byte := by
  have noE : ∀ a c b, s = a ++ c :: b → NoToken EncodedChar (c :: b ++ []) := by
    rintro a c b e w o r ⟨k, code, body, b', _, _, _, rfl, _⟩ h'
    refine h a (k ++ 58 :: body ++ 125 :: r) ?_
    rw [List.append_nil] at h'
    rw [e, h']; simp
  have noR : ∀ a c b, s = a ++ c :: b → NoToken (Reference x) (c :: b ++ []) := by
    rintro a c b e w o r ⟨n, _, rfl, _⟩ h'
    refine h a (n ++ 125 :: r) ?_
    rw [List.append_nil] at h'
    rw [e, h']; simp
  refine (string_read_partial x s ?_ ?_ _).mpr ⟨s, ?_, ?_⟩
  · rintro ⟨p, k, code, u, b, w, rest, e, _⟩
    exact h p (k ++ 58 :: (u ++ w) ++ 125 :: rest) (by rw [e]; simp)
  · rintro ⟨p, k, u, b, w, c, rest, e, _⟩
    exact h p (k ++ 58 :: (u ++ w) ++ c :: rest) (by rw [e]; simp)
  · have := (chunk_iff (keep := id) s noE s).mpr ⟨[], by simp, .nil⟩
    rw [List.append_nil] at this; exact this
  · have := (chunk_iff (keep := Piece.byte) s noR (s.map .byte)).mpr ⟨[], by simp, .nil⟩
    rw [List.append_nil] at this; exact this

/-- Reading a name. -/
theorem loop_name (x : Ext V F) (bytes : Bytes) : ∀ (m rest pre n : Bytes) (s : St V F), bytes = pre ++ (m ++ rest) →
    Reads pre s n → Begins (n ++ m) → ∃ s', loop x true (addDecoded x) bytes pre.length (m ++ rest) s =
      loop x true (addDecoded x) bytes (pre ++ m).length rest s' ∧ Reads (pre ++ m) s' (n ++ m) ∧ s'.items = s.items ∧
      s'.buf = s.buf := by
  intro m
  induction m with
  | nil => intro rest pre n s _ h _; exact ⟨s, by simp, by simpa using h, rfl, rfl⟩
  | cons c m ih =>
    intro rest pre n s hb h hbeg
    have hc : NameByte c := hbeg.chars c (by simp)
    have h58 : c = 58 → 46 ∈ n := by rintro rfl; exact hbeg.colons n m rfl
    have more : ∀ s' : St V F, inVariable x true (addDecoded x) bytes pre.length s c = some (s', false) →
        s'.mode = .name → s'.start = s.start →
        (s'.isNum = true ↔ s.isNum = true ∧ (48 ≤ c ∧ c ≤ 57)) → (s'.hasNs = true ↔ s.hasNs = true ∨ c = 46) →
        s'.items = s.items → s'.buf = s.buf →
        ∃ s', loop x true (addDecoded x) bytes pre.length (c :: m ++ rest) s =
          loop x true (addDecoded x) bytes (pre ++ c :: m).length rest s' ∧ Reads (pre ++ c :: m) s' (n ++ c :: m) ∧
          s'.items = s.items ∧ s'.buf = s.buf := by
      intro s' hv hm hst hn hns hi hbuf
      have hs := step_variable x true (addDecoded x) bytes pre.length s c h.mode
      rw [hv] at hs
      obtain ⟨s2, e1, e2, e3, e4⟩ := ih rest (pre ++ [c]) (n ++ [c]) { s' with last := c } (by rw [hb]; simp)
        (reads_snoc (s' := { s' with last := c }) h c hc h58 hm hst hn hns) (by simpa using hbeg)
      refine ⟨s2, ?_, by simpa using e2, by rw [e3]; exact hi, by rw [e4]; exact hbuf⟩
      have el : pre ++ [c] ++ m = pre ++ c :: m := by simp
      rw [el] at e1
      rw [← e1]
      show (step x true (addDecoded x) bytes pre.length s c).bind _ = _
      rw [hs]
      show loop x true (addDecoded x) bytes (pre.length + 1) (m ++ rest) { s' with last := c } = _
      simp
    by_cases h1 : isNameChar c = true
    · obtain ⟨_, h46, _, hd⟩ := isNameChar_spec h1
      exact more { s with isNum := false } (by unfold inVariable; rw [if_pos h1]) h.mode rfl (by simp [hd]) (by simp [h46]) rfl rfl
    by_cases h2 : c = 46
    · subst h2
      exact more { s with isNum := false, hasNs := true } rfl h.mode rfl (by simp) (by simp) rfl rfl
    by_cases h3 : isDigit c = true
    · have hd := isDigit_spec.mp h3
      exact more s (by unfold inVariable; rw [if_neg h1, if_neg h2, if_pos h3]) h.mode rfl (by simp [hd]) (by simp [h2]) rfl rfl
    have hc58 : c = 58 := by
      rcases nameByte_cases hc with h | h | h | h
      · exact absurd h h1
      · exact absurd h h2
      · exact absurd h h3
      · exact h
    subst hc58
    have hns : s.hasNs = true := h.ns.mpr (h58 rfl)
    refine more { s with isNum := false } ?_ h.mode rfl (by simp) (by simp) rfl rfl
    unfold inVariable
    rw [if_neg h1, if_neg h2, if_neg h3, if_neg (by decide), if_pos rfl]
    simp [colon, hns]

/-- C62: a string that is just one variable has the value of the variable, not only its text. -/
theorem single_variable {R : Type} (x : Ext V F) (e : Values V F R) {n : Bytes} (hn : IsName n) {v : V}
    (hv : x.resolve n = .var v) :
    tokenize x true ([36, 123] ++ n ++ [125]) = some [.var v] ∧
      ∀ r, e.get v = some r → evalValue x e [.var v] = r := by
  refine ⟨?_, fun r hr => by simp [evalValue, hr]⟩
  set bytes := [36, 123] ++ n ++ [125] with hbytes
  let s2 : St V F := ⟨.name, [], 123, 2, true, false, false, false, none, []⟩
  have h0 : loop x true (addDecoded x) bytes 0 bytes .new = loop x true (addDecoded x) bytes 2 (n ++ [125]) s2 := rfl
  have hr : Reads [36, 123] s2 [] := ⟨rfl, ⟨[], rfl, rfl⟩, .nil, by simp [s2], by simp [s2]⟩
  obtain ⟨s3, e1, e2, e3, e4⟩ := loop_name x bytes n [125] [36, 123] [] s2 (by simp [hbytes]) hr
    ⟨hn.chars, hn.colons⟩
  have hlen : ([36, 123] : Bytes).length = 2 := rfl
  rw [hlen] at e1
  rw [List.nil_append] at e2
  have hflush : flush (addDecoded x) s3 = some s3 := by unfold flush; rw [if_pos (by rw [e4])]
  have hst : s3.start = 2 := by
    obtain ⟨p, hp, hs⟩ := e2.pre
    have : p.length = 0 := by
      have := congrArg List.length hp
      simp only [List.length_append, List.length_cons, List.length_nil] at this
      omega
    rw [hs, this]
  have hend : endVariable x (addDecoded x) bytes ([36, 123] ++ n).length s3 =
      some ({ s3 with items := s3.items ++ [.var v], mode := .text }, false) := by
    unfold endVariable
    have hlt : s3.start < ([36, 123] ++ n).length := by
      have := List.length_pos_iff.mpr hn.nonempty
      rw [hst]; simp; omega
    have hname : slice bytes s3.start ([36, 123] ++ n).length = n := by
      have := slice_name (p := []) (n := n) (rest := [125]) (start := s3.start) (by rw [hst]; rfl)
      simpa [hbytes] using this
    have hres := resolve_eq (x := x) e2
    rw [hv] at hres
    rw [if_pos hlt, hflush]
    show (match if s3.isNum then x.numbered (slice bytes s3.start ([36, 123] ++ n).length)
      else x.named s3.hasNs (slice bytes s3.start ([36, 123] ++ n).length) with
      | Look.var v => some ({ s3 with items := s3.items ++ [Item.var v], mode := Mode.text }, false)
      | .none => some ({ s3 with mode := .text }, false)
      | .invalid => some ({ s3 with mode := .text }, true)
      | .fail => none) = _
    rw [hname, hres]
  have hstep : step x true (addDecoded x) bytes ([36, 123] ++ n).length s3 125 =
      some { s3 with items := s3.items ++ [.var v], mode := .text, last := 125 } := by
    rw [step_variable x true (addDecoded x) bytes _ s3 125 e2.mode]
    have : inVariable x true (addDecoded x) bytes ([36, 123] ++ n).length s3 125 =
        endVariable x (addDecoded x) bytes ([36, 123] ++ n).length s3 := rfl
    rw [this, hend]; rfl
  show (loop x true (addDecoded x) bytes 0 bytes .new).bind (finish (addDecoded x) bytes) = _
  rw [h0, e1]
  show ((step x true (addDecoded x) bytes ([36, 123] ++ n).length s3 125).bind _).bind _ = _
  rw [hstep]
  show finish (addDecoded x) bytes { s3 with items := s3.items ++ [.var v], mode := .text, last := 125 } = _
  have e3' : s3.items = [] := e3
  have e4' : s3.buf = [] := e4
  simp [finish, e3', e4']

/-! ### Concrete cases -/

/-- An environment: `a` and match variable 1 are known, `b.` is no namespace, numbers above 9 are errors. -/
def sample : Ext Nat Nat where
  named ns n := if ns then .invalid else if n = [97] then .var 0 else .none
  numbered n := if n = [49] then .var 1 else if n.length = 1 then .none else .fail
  parseInt b := if b = [53] then some 5 else none
  showInt n := if n = 5 then [53] else []
  parseFlt _ := none
  showFlt _ := []

/-- `x${a}5` -/
example : tokenize sample true [120, 36, 123, 97, 125, 53] = some [.text [120], .var 0, .int 5] := by decide +kernel

/-- `${b.c}${a${1}` keeps what is no reference. -/
example : tokenize sample true [36, 123, 98, 46, 99, 125, 36, 123, 97, 36, 123, 49, 125] =
    some [.text [36, 123, 98, 46, 99, 125, 36, 123, 97], .var 1] := by decide +kernel

/-- `${10}` is an error, and has no reading. -/
example : tokenize sample true [36, 123, 49, 48, 125] = none := by decide +kernel

/-- `${hex:24 7b}a}` is decoded to `${a}`, which is a variable. -/
example : tokenize sample true [36, 123, 104, 101, 120, 58, 50, 52, 32, 55, 98, 125, 97, 125] = some [.var 0] := by
  decide +kernel

/-- `${unicode:20ac}` is the euro sign. -/
example : tokenize sample true [36, 123, 117, 110, 105, 99, 111, 100, 101, 58, 50, 48, 97, 99, 125] =
    some [.text [0xE2, 0x82, 0xAC]] := by decide +kernel

example : EncodedChar [36, 123, 104, 101, 120, 58, 50, 52, 32, 55, 98, 125] (some [36, 123]) :=
  ⟨[104, 101, 120], byteCode, [50, 52, 32, 55, 98], [36, 123], .hex (by decide),
    .number (w := [50, 52]) (a := [36]) (by decide) (by decide) (by intro c r e; cases e; decide) (by decide)
      (.blank (by decide) (.number (w := [55, 98]) (rest := []) (a := [123]) (b := []) (by decide) (by decide) (by simp) (by decide) .nil)),
    by decide, rfl, rfl⟩

/-- Disagreement (C61): `${hex:41 100}` is malformed, because the last number is no byte, and should stay as it is.  The
code keeps the byte of the first number and adds the text as well: `A${hex:41 100}` (`string.rs:198-216`: the closing
brace has already set `State::None`, so nothing is taken back). -/
theorem bad_last_number :
    Spoiled [36, 123, 104, 101, 120, 58, 52, 49, 32, 49, 48, 48, 125] ∧
    tokenize sample true [36, 123, 104, 101, 120, 58, 52, 49, 32, 49, 48, 48, 125] =
      some [.text [65, 36, 123, 104, 101, 120, 58, 52, 49, 32, 49, 48, 48, 125]] := by
  refine ⟨⟨[], [104, 101, 120], byteCode, [52, 49, 32], [65], [49, 48, 48], [], rfl, .hex (by decide), ?_, by decide,
    ⟨[52, 49], 32, rfl, by decide⟩, by decide, by decide, by decide⟩, by decide +kernel⟩
  exact .number (w := [52, 49]) (rest := [32]) (a := [65]) (b := []) (by decide) (by decide)
    (by intro c r e; cases e; decide) (by decide) (.blank (by decide) .nil)

/-- Disagreement (C61): `${unicode:110000 z}` is no encoded character and should be plain text, but the script is
rejected, as for a number that is no Unicode character in an otherwise correct one. -/
theorem malformed_unicode_rejected :
    tokenize sample true [36, 123, 117, 110, 105, 99, 111, 100, 101, 58, 49, 49, 48, 48, 48, 48, 32, 122, 125] = none := by
  decide +kernel

/-- Disagreement (C60): `a-b` is no name of a variable in RFC 5229, so `${a-b}` should be plain text; the code drops
it. -/
theorem hyphen_dropped : tokenize sample true [120, 36, 123, 97, 45, 98, 125, 121] = some [.text [120], .text [121]] := by
  decide +kernel

end Sieve.Str
