import Verif.Prelude
import Verif.SetModel
import Verif.GlobProps
/-
C04, C21, C23, C44: variable assignment and modifiers.
-/
namespace Sieve.SetVar
open Sieve Sieve.Glob

/-! ### Prefixes -/

theorem prefix_total {s a b : List Char} (ha : a <+: s) (hb : b <+: s) : a <+: b ∨ b <+: a :=
  List.prefix_or_prefix_of_prefix ha hb

theorem byteLen_prefix {a b : List Char} (h : a <+: b) : byteLen a ≤ byteLen b := by
  obtain ⟨t, rfl⟩ := h; simp

theorem truncGo_spec (max : Nat) (acc cs : List Char) (hacc : byteLen acc ≤ max) :
    LongestPrefix max (acc ++ cs) (truncGo max acc cs) := by
  induction cs generalizing acc with
  | nil =>
    simp only [truncGo, List.append_nil]
    exact ⟨List.prefix_rfl, hacc, fun r h _ => h⟩
  | cons c cs ih =>
    simp only [truncGo]
    split
    · have := ih (acc ++ [c]) (by simp; omega)
      simpa using this
    · rename_i hbig
      refine ⟨List.prefix_append .., hacc, fun r hr hle => ?_⟩
      have hr2 : acc ++ [c] <+: acc ++ c :: cs := ⟨cs, by simp⟩
      rcases prefix_total hr hr2 with h | h
      · rcases List.prefix_concat_iff.mp h with h | h
        · subst h; simp at hle; omega
        · exact h
      · have := byteLen_prefix h
        simp at this; omega

/-- **C21** (strings): the stored value is the given one if it fits, otherwise its longest
prefix of whole characters that fits. -/
theorem stored_string (max : Nat) (s : List Char) :
    ∃ r, stored max (.str s) = .str r ∧ LongestPrefix max s r ∧
      (byteLen s ≤ max → r = s) := by
  unfold stored
  rw [show (Variable.str s).len = byteLen s from rfl, show (Variable.str s).text = s from rfl]
  by_cases h : max < byteLen s
  · rw [if_pos h]
    exact ⟨_, rfl, by simpa using truncGo_spec max [] s (by simp), fun h' => by omega⟩
  · rw [if_neg h]
    exact ⟨s, rfl, ⟨List.prefix_rfl, by omega, fun r h _ => h⟩, fun _ => rfl⟩

/-- **C21** (any value): the stored value never exceeds the limit; a value within the limit is
stored unchanged, any other one as the longest fitting prefix of its text.  Sizes are those of
`Variable::len` (numbers count as 2, array elements as their size plus 2). -/
theorem stored_any (max : Nat) (v : Variable) :
    (stored max v).len ≤ max ∧ (v.len ≤ max → stored max v = v) ∧
    (max < v.len → ∃ r, stored max v = .str r ∧ LongestPrefix max v.text r) := by
  unfold stored
  split
  · rename_i h
    have := truncGo_spec max [] v.text (by simp)
    exact ⟨this.2.1, fun h' => by omega, fun _ => ⟨_, rfl, this⟩⟩
  · rename_i h
    exact ⟨by omega, fun _ => rfl, fun h' => by omega⟩

theorem arrayTextGo_len (l : List Variable) (acc : List Char)
    (hl : ∀ v ∈ l, ∃ s, v = .str s) :
    byteLen (arrayTextGo l acc) ≤ byteLen acc + Variable.len.lens l := by
  induction l generalizing acc with
  | nil => simp [arrayTextGo, Variable.len.lens]
  | cons v vs ih =>
    obtain ⟨s, rfl⟩ := hl v (List.mem_cons_self ..)
    simp only [arrayTextGo, Variable.len.lens, Variable.len]
    refine le_trans (ih _ fun v hv => hl v (List.mem_cons_of_mem _ hv)) ?_
    simp only [byteLen_append]
    have : byteLen (if acc = [] then acc else acc ++ ['\r', '\n']) ≤ byteLen acc + 2 := by
      split
      · omega
      · simp only [byteLen_append, byteLen_cons, byteLen_nil]
        have : '\r'.utf8Size = 1 ∧ '\n'.utf8Size = 1 := by decide
        omega
    omega

/-- **C21** (what a script reads back): for strings and lists of strings the text of the stored
variable is at most `max` bytes long.
The full claim would hold for all values; the texts of numbers can be longer (`stored_integer_exceeds`). -/
theorem stored_text_bound_partial (max : Nat) (v : Variable)
    (hv : (∃ s, v = .str s) ∨ ∃ l : List Variable, v = .array l ∧ ∀ x ∈ l, ∃ s, x = .str s) :
    byteLen (stored max v).text ≤ max := by
  unfold stored
  split
  · exact (truncGo_spec max [] v.text (by simp)).2.1
  · rename_i h
    rcases hv with ⟨s, rfl⟩ | ⟨l, rfl, hl⟩
    · simp only [Variable.len, Variable.text] at *; omega
    · simp only [Variable.len, Variable.text] at *
      have := arrayTextGo_len l [] hl
      simp at this
      omega

/-- Without that restriction the bound fails: integers count as two bytes whatever their size. -/
theorem stored_integer_exceeds :
    ∃ (max : Nat) (v : Variable), max < byteLen (stored max v).text :=
  ⟨4, .int 123456, by decide⟩

example : stored 4 (.str "aé€z".toList) = .str "aé".toList := by
  rw [stored, if_pos (by decide)]
  exact congrArg _ (by decide)

/-! ### quotewildcard -/

/-- Quoting a whole text: a backslash before each of `*`, `?`, `\`. -/
def quoted (s : List Char) : List Char :=
  s.flatMap fun c => if c = '*' ∨ c = '?' ∨ c = '\\' then ['\\', c] else [c]

theorem mem_wildcardSpecials (c : Char) :
    c ∈ wildcardSpecials ↔ (c = '*' ∨ c = '?' ∨ c = '\\') := by
  simp [wildcardSpecials]; tauto

theorem quoted_append (a b : List Char) : quoted (a ++ b) = quoted a ++ quoted b := by
  simp [quoted]

theorem special_size {c : Char} (h : c = '*' ∨ c = '?' ∨ c = '\\') : c.utf8Size = 1 := by
  rcases h with rfl | rfl | rfl <;> decide

theorem byteLen_quoted_snoc (s : List Char) (c : Char) :
    byteLen (quoted (s ++ [c])) = byteLen (quoted s) +
      (if c = '*' ∨ c = '?' ∨ c = '\\' then 2 else c.utf8Size) := by
  rw [quoted_append, byteLen_append]
  simp only [quoted, List.flatMap_cons, List.flatMap_nil, List.append_nil]
  split
  · rename_i h
    simp only [byteLen_cons, byteLen_nil, special_size h]
    have : '\\'.utf8Size = 1 := by decide
    omega
  · simp

theorem byteLen_quoted_prefix {a b : List Char} (h : a <+: b) :
    byteLen (quoted a) ≤ byteLen (quoted b) := by
  obtain ⟨t, rfl⟩ := h; simp [quoted_append]

theorem quoteGo_spec (max : Nat) (done cs : List Char) (hd : byteLen (quoted done) ≤ max) :
    ∃ pre, pre <+: done ++ cs ∧ quoteGo wildcardSpecials max (quoted done) cs = quoted pre ∧
      byteLen (quoted pre) ≤ max ∧
      ∀ r, r <+: done ++ cs → byteLen (quoted r) ≤ max → r <+: pre := by
  induction cs generalizing done with
  | nil => exact ⟨done, by simp, rfl, hd, fun r h _ => by simpa using h⟩
  | cons c cs ih =>
    have hsnoc := byteLen_quoted_snoc done c
    have hstop : max < byteLen (quoted (done ++ [c])) →
        ∀ r, r <+: done ++ c :: cs → byteLen (quoted r) ≤ max → r <+: done := by
      intro hbig r hr hle
      have hr2 : done ++ [c] <+: done ++ c :: cs := ⟨cs, by simp⟩
      rcases prefix_total hr hr2 with h | h
      · rcases List.prefix_concat_iff.mp h with h | h
        · subst h; omega
        · exact h
      · have := byteLen_quoted_prefix h
        omega
    have hih := ih (done ++ [c])
    simp only [List.append_assoc, List.cons_append, List.nil_append] at hih
    simp only [quoteGo]
    by_cases hc : c ∈ wildcardSpecials
    · have hc' := (mem_wildcardSpecials c).mp hc
      rw [if_pos hc]
      rw [if_pos hc'] at hsnoc
      rw [special_size hc']
      split
      · have e : quoted done ++ ['\\', c] = quoted (done ++ [c]) := by
          rw [quoted_append]; simp [quoted, hc']
        rw [e]
        exact hih (by omega)
      · exact ⟨done, List.prefix_append .., rfl, hd, hstop (by omega)⟩
    · have hc' := fun h => hc ((mem_wildcardSpecials c).mpr h)
      rw [if_neg hc]
      rw [if_neg hc'] at hsnoc
      split
      · have e : quoted done ++ [c] = quoted (done ++ [c]) := by
          rw [quoted_append]; simp only [quoted, List.flatMap_cons, List.flatMap_nil, if_neg hc',
            List.append_nil]
        rw [e]
        exact hih (by omega)
      · exact ⟨done, List.prefix_append .., rfl, hd, hstop (by omega)⟩

/-- A quoted text, read as a pattern, describes the text itself and nothing else. -/
theorem matches_quoted {lit : Char → List Char → Prop} (s v : List Char) (ts : List (List Char)) :
    MatchesWith lit (quoted s) v ts ↔
      ts = [] ∧ ∃ ws : List (List Char), v = ws.flatten ∧ List.Forall₂ lit s ws := by
  induction s generalizing v ts with
  | nil =>
    constructor
    · intro h
      generalize hp : quoted [] = p at h
      cases h with
      | nil => exact ⟨rfl, [], rfl, .nil⟩
      | _ => simp [quoted] at hp
    · rintro ⟨rfl, ws, rfl, h⟩
      cases h; exact .nil
  | cons c cs ih =>
    have hq : quoted (c :: cs) =
        (if c = '*' ∨ c = '?' ∨ c = '\\' then ['\\', c] else [c]) ++ quoted cs := by
      simp [quoted]
    rw [hq]
    by_cases hc : c = '*' ∨ c = '?' ∨ c = '\\'
    · rw [if_pos hc]
      constructor
      · intro h
        generalize hp : ['\\', c] ++ quoted cs = p at h
        cases h with
        | escaped hl h' =>
          simp only [List.cons_append, List.nil_append, List.cons.injEq, true_and] at hp
          obtain ⟨rfl, rfl⟩ := hp
          obtain ⟨rfl, ws, rfl, hw⟩ := (ih _ _).mp h'
          exact ⟨rfl, _ :: ws, rfl, .cons hl hw⟩
        | literal _ _ h3 =>
          simp only [List.cons_append, List.cons.injEq] at hp; exact absurd hp.1.symm h3
        | _ => simp at hp
      · rintro ⟨rfl, ws, rfl, h⟩
        cases h with
        | cons hl hw => exact .escaped hl ((ih _ _).mpr ⟨rfl, _, rfl, hw⟩)
    · rw [if_neg hc]
      simp only [not_or] at hc
      constructor
      · intro h
        generalize hp : [c] ++ quoted cs = p at h
        cases h with
        | literal _ _ _ hl h' =>
          simp only [List.cons_append, List.nil_append, List.cons.injEq] at hp
          obtain ⟨rfl, rfl⟩ := hp
          obtain ⟨rfl, ws, rfl, hw⟩ := (ih _ _).mp h'
          exact ⟨rfl, _ :: ws, rfl, .cons hl hw⟩
        | nil => simp at hp
        | star => simp at hp; exact absurd hp.1 hc.1
        | quest => simp at hp; exact absurd hp.1 hc.2.1
        | escaped => simp at hp; exact absurd hp.1 hc.2.2
        | dangling => simp at hp; exact absurd hp.1 hc.2.2
      · rintro ⟨rfl, ws, rfl, h⟩
        cases h with
        | cons hl hw => exact .literal hc.1 hc.2.1 hc.2.2 hl ((ih _ _).mpr ⟨rfl, _, rfl, hw⟩)

theorem forall₂_fun {β : Type} (f : Char → β) {s : List Char} {ws : List β} :
    List.Forall₂ (fun c w => w = f c) s ws ↔ ws = s.map f := by
  constructor
  · intro h
    induction h with
    | nil => rfl
    | cons h _ ih => rw [List.map_cons, ih, h]
  · rintro rfl
    induction s with
    | nil => exact .nil
    | cons c cs ih => exact .cons rfl ih

theorem forall₂_exactly {s : List Char} {ws : List (List Char)} :
    List.Forall₂ exactly s ws ↔ ws = s.map fun c => [c] :=
  forall₂_fun fun c => [c]

theorem flatten_singletons (s : List Char) : (s.map fun c => [c]).flatten = s := by
  induction s with
  | nil => rfl
  | cons c cs ih => simp only [List.map_cons, List.flatten_cons, ih]; rfl

/-- **C04**: `set :quotewildcard` produces the quoted form of a prefix of the input, of the whole
input if its quoted form fits (and otherwise of the longest prefix that fits), at most `max` bytes
long; used as a `:matches` pattern it matches that prefix and nothing else. -/
theorem quotewildcard_literal (x : Ext) (cm : CaseMap) (max : Nat) (s : List Char) :
    ∃ pre, pre <+: s ∧ (byteLen (quoted s) ≤ max → pre = s) ∧
      (∀ r, r <+: s → byteLen (quoted r) ≤ max → r <+: pre) ∧
      Modifier.quoteWildcard.apply x max s = quoted pre ∧ byteLen (quoted pre) ≤ max ∧
      ∀ v, globMatches cm false (compile cm (Modifier.quoteWildcard.apply x max s) false) v =
        some (decide (v = pre)) := by
  obtain ⟨pre, h1, h2, h3, h4⟩ := quoteGo_spec max [] s (by simp [quoted])
  simp only [List.nil_append] at h1 h4
  have h2' : Modifier.quoteWildcard.apply x max s = quoted pre := h2
  refine ⟨pre, h1, ?_, h4, h2', h3, ?_⟩
  · intro hfit
    have := h4 s List.prefix_rfl hfit
    exact (List.IsPrefix.eq_of_length_le h1 this.length_le)
  · intro v
    rw [h2']
    obtain ⟨b, hb, hiff⟩ := matches_octet cm (quoted pre) v
    rw [hb]
    congr 1
    have : (∃ ts, MatchesWith exactly (quoted pre) v ts) ↔ v = pre := by
      constructor
      · rintro ⟨ts, h⟩
        obtain ⟨_, ws, rfl, hw⟩ := (matches_quoted _ _ _).mp h
        rw [forall₂_exactly.mp hw, flatten_singletons]
      · rintro rfl
        exact ⟨[], (matches_quoted _ _ _).mpr ⟨rfl, v.map fun c => [c], (flatten_singletons v).symm,
          forall₂_exactly.mpr rfl⟩⟩
    rw [this] at hiff
    by_cases hv : v = pre
    · rw [decide_eq_true hv]; exact hiff.mpr hv
    · rw [decide_eq_false hv]
      cases hbb : b with
      | false => rfl
      | true => exact absurd (hiff.mp hbb) hv

/-- **C04**, `i;ascii-casemap`: the quoted text matches exactly the values whose lower-case form
is the folded text. -/
theorem quotewildcard_literal_casemap (x : Ext) (cm : CaseMap) (max : Nat) (s : List Char)
    (hfit : byteLen (quoted s) ≤ max) (v : List Char) :
    globMatches cm true (compile cm (Modifier.quoteWildcard.apply x max s) true) v =
      some (decide (cm.strLower v =
        s.flatMap fun c => if cm.isUpper c = true then cm.lower c else [c])) := by
  obtain ⟨pre, _, hall, _, h2', _⟩ := quotewildcard_literal x cm max s
  rw [h2', hall hfit]
  obtain ⟨b, hb, hiff⟩ := matches_casemap cm (quoted s) v
  rw [hb]
  congr 1
  have hfold : ∀ ws : List (List Char), List.Forall₂ (folded cm) s ws ↔
      ws = s.map fun c => if cm.isUpper c = true then cm.lower c else [c] :=
    fun ws => forall₂_fun _
  have : (∃ ts, MatchesWith (folded cm) (quoted s) (cm.strLower v) ts) ↔ cm.strLower v =
      s.flatMap fun c => if cm.isUpper c = true then cm.lower c else [c] := by
    constructor
    · rintro ⟨ts, h⟩
      obtain ⟨_, ws, hv, hw⟩ := (matches_quoted _ _ _).mp h
      rw [hv, (hfold ws).mp hw, List.flatMap_def]
    · intro h
      exact ⟨[], (matches_quoted _ _ _).mpr ⟨rfl, _, by rw [h, List.flatMap_def],
        (hfold _).mpr rfl⟩⟩
  rw [this] at hiff
  by_cases hv : cm.strLower v = s.flatMap fun c => if cm.isUpper c = true then cm.lower c else [c]
  · rw [decide_eq_true hv]; exact hiff.mpr hv
  · rw [decide_eq_false hv]
    cases hbb : b with
    | false => rfl
    | true => exact absurd (hiff.mp hbb) hv

example : quoteGo wildcardSpecials 10 [] "a*b?".toList = "a\\*b\\?".toList := by decide
example : quoteGo wildcardSpecials 4 [] "a*b?".toList = "a\\*b".toList := by decide

/-! ### encodeurl -/

/-- Value of a hexadecimal digit. -/
def hexValue (c : Char) : Option Nat :=
  if '0' ≤ c ∧ c ≤ '9' then some (c.toNat - 48)
  else if 'a' ≤ c ∧ c ≤ 'f' then some (c.toNat - 87)
  else if 'A' ≤ c ∧ c ≤ 'F' then some (c.toNat - 55)
  else none

/-- Percent-decoding (RFC 3986) of an ASCII text into bytes; `none` if malformed. -/
def pctDecode : List Char → Option (List UInt8)
  | [] => some []
  | '%' :: h :: l :: cs => do
    let a ← hexValue h
    let b ← hexValue l
    let r ← pctDecode cs
    return UInt8.ofNat (16 * a + b) :: r
  | c :: cs => if c.toNat < 128 ∧ c ≠ '%' then
      (pctDecode cs).map (UInt8.ofNat c.toNat :: ·) else none

/-- UTF-8 encoding of a text. -/
def utf8 (s : List Char) : List UInt8 := s.flatMap String.utf8EncodeChar

/-- RFC 3986 unreserved characters. -/
def isUnreserved (c : Char) : Prop :=
  ('a' ≤ c ∧ c ≤ 'z') ∨ ('A' ≤ c ∧ c ≤ 'Z') ∨ ('0' ≤ c ∧ c ≤ '9') ∨ c ∈ ['-', '.', '_', '~']

/-- The untruncated encoding of one character. -/
def enc1 (c : Char) : List Char :=
  if unreserved c then [c] else (String.utf8EncodeChar c).flatMap pctByte

theorem unreserved_iff (c : Char) : unreserved c = true ↔ isUnreserved c := by
  simp only [unreserved, Char.isAlphanum, Char.isAlpha, Char.isUpper, Char.isLower, Char.isDigit,
    Bool.or_eq_true, Bool.and_eq_true, decide_eq_true_eq, beq_iff_eq, isUnreserved,
    List.mem_cons, List.not_mem_nil, or_false, Char.le_def, ge_iff_le]
  tauto

theorem unreserved_ascii {c : Char} (h : unreserved c = true) : c.toNat < 128 := by
  rw [unreserved_iff] at h
  have hle : ∀ a b : Char, a ≤ b → a.toNat ≤ b.toNat := fun a b h => h
  rcases h with h | h | h | h
  · have := hle _ _ h.2; have : 'z'.toNat = 122 := by decide
    omega
  · have := hle _ _ h.2; have : 'Z'.toNat = 90 := by decide
    omega
  · have := hle _ _ h.2; have : '9'.toNat = 57 := by decide
    omega
  · simp only [List.mem_cons, List.not_mem_nil, or_false] at h
    rcases h with rfl | rfl | rfl | rfl <;> decide

/-- Encoding of a whole text. -/
def encAll (s : List Char) : List Char := s.flatMap enc1

theorem encAll_append (a b : List Char) : encAll (a ++ b) = encAll a ++ encAll b := by
  simp [encAll]

theorem byteLen_ascii {s : List Char} (h : ∀ c ∈ s, c.toNat < 128) : byteLen s = s.length := by
  induction s with
  | nil => rfl
  | cons c cs ih =>
    rw [byteLen_cons, List.length_cons, ih fun d hd => h d (List.mem_cons_of_mem _ hd)]
    have := h c (List.mem_cons_self ..)
    have : c.utf8Size = 1 := by
      unfold Char.utf8Size
      rw [if_pos]
      rw [UInt32.le_iff_toNat_le]
      have : c.val.toNat < 128 := this
      simp; omega
    omega

theorem hexDigit_value : ∀ n < 16, hexValue (hexDigit n) = some n ∧ unreserved (hexDigit n) = true := by
  decide

theorem pctByte_chars (b : UInt8) : ∀ c ∈ pctByte b, unreserved c = true ∨ c = '%' := by
  intro c hc
  have hb := b.toNat_lt
  simp only [pctByte, List.mem_cons, List.not_mem_nil, or_false] at hc
  rcases hc with rfl | rfl | rfl
  · exact Or.inr rfl
  · exact Or.inl (hexDigit_value _ (by omega)).2
  · exact Or.inl (hexDigit_value _ (by omega)).2

theorem enc1_chars (c : Char) : ∀ d ∈ enc1 c, unreserved d = true ∨ d = '%' := by
  intro d hd
  unfold enc1 at hd
  split at hd
  · simp only [List.mem_cons, List.not_mem_nil, or_false] at hd
    subst hd
    exact Or.inl (by assumption)
  · obtain ⟨b, _, hb⟩ := List.mem_flatMap.mp hd
    exact pctByte_chars b d hb

theorem encAll_chars (s : List Char) : ∀ d ∈ encAll s, unreserved d = true ∨ d = '%' := by
  intro d hd
  obtain ⟨c, _, hc⟩ := List.mem_flatMap.mp hd
  exact enc1_chars c d hc

theorem ascii_of_chars {s : List Char} (h : ∀ d ∈ s, unreserved d = true ∨ d = '%') :
    ∀ d ∈ s, d.toNat < 128 := by
  intro d hd
  rcases h d hd with h | rfl
  · exact unreserved_ascii h
  · decide

theorem enc1_len (c : Char) : byteLen (enc1 c) =
    if unreserved c then 1 else c.utf8Size * 3 := by
  rw [byteLen_ascii (ascii_of_chars (enc1_chars c))]
  unfold enc1
  split
  · rfl
  · rw [List.length_flatMap]
    have : ∀ l : List UInt8, (l.map fun b => (pctByte b).length).sum = l.length * 3 := by
      intro l
      induction l with
      | nil => rfl
      | cons b bs ih => simp only [List.map_cons, List.sum_cons, ih, List.length_cons]
                        simp [pctByte]; omega
    rw [this, String.length_utf8EncodeChar]

theorem encodeUrlGo_spec (max : Nat) (done cs : List Char) (hd : byteLen (encAll done) ≤ max) :
    ∃ pre, pre <+: done ++ cs ∧ encodeUrlGo max (encAll done) cs = encAll pre ∧
      byteLen (encAll pre) ≤ max ∧
      ∀ r, r <+: done ++ cs → byteLen (encAll r) ≤ max → r <+: pre := by
  induction cs generalizing done with
  | nil => exact ⟨done, by simp, rfl, hd, fun r h _ => by simpa using h⟩
  | cons c cs ih =>
    have hsnoc : byteLen (encAll (done ++ [c])) = byteLen (encAll done) +
        if unreserved c then 1 else c.utf8Size * 3 := by
      rw [encAll_append, byteLen_append, ← enc1_len c]
      simp [encAll]
    have hstop : max < byteLen (encAll (done ++ [c])) →
        ∀ r, r <+: done ++ c :: cs → byteLen (encAll r) ≤ max → r <+: done := by
      intro hbig r hr hle
      have hr2 : done ++ [c] <+: done ++ c :: cs := ⟨cs, by simp⟩
      rcases prefix_total hr hr2 with h | h
      · rcases List.prefix_concat_iff.mp h with h | h
        · subst h; omega
        · exact h
      · obtain ⟨t, ht⟩ := h
        rw [← ht, encAll_append, byteLen_append] at hle
        omega
    have hih := ih (done ++ [c])
    simp only [List.append_assoc, List.cons_append, List.nil_append] at hih
    simp only [encodeUrlGo]
    have e : encAll (done ++ [c]) = encAll done ++ enc1 c := by
      rw [encAll_append]; simp [encAll]
    rw [e] at hih
    unfold enc1 at hih
    by_cases hc : unreserved c = true
    · rw [if_pos hc] at hsnoc hih
      rw [if_pos hc]
      split
      · exact hih (by rw [e, enc1, if_pos hc] at hsnoc; omega)
      · exact ⟨done, List.prefix_append .., rfl, hd, hstop (by omega)⟩
    · rw [if_neg hc] at hsnoc hih
      rw [if_neg hc]
      split
      · exact hih (by rw [e, enc1, if_neg hc] at hsnoc; omega)
      · exact ⟨done, List.prefix_append .., rfl, hd, hstop (by omega)⟩

theorem pctDecode_byte (b : UInt8) (t : List Char) :
    pctDecode (pctByte b ++ t) = (pctDecode t).map (b :: ·) := by
  have hb := b.toNat_lt
  have h1 := (hexDigit_value (b.toNat / 16) (by omega)).1
  have h2 := (hexDigit_value (b.toNat % 16) (by omega)).1
  simp only [pctByte, List.cons_append, List.nil_append, pctDecode, h1, h2]
  have : 16 * (b.toNat / 16) + b.toNat % 16 = b.toNat := by omega
  cases h : pctDecode t with
  | none => rfl
  | some r =>
    show some (UInt8.ofNat (16 * (b.toNat / 16) + b.toNat % 16) :: r) = some (b :: r)
    rw [this, UInt8.ofNat_toNat]

theorem pctDecode_bytes (bs : List UInt8) (t : List Char) :
    pctDecode (bs.flatMap pctByte ++ t) = (pctDecode t).map (bs ++ ·) := by
  induction bs with
  | nil => simp
  | cons b bs ih =>
    rw [List.flatMap_cons, List.append_assoc, pctDecode_byte, ih]
    cases pctDecode t <;> rfl

theorem pctDecode_enc1 (c : Char) (t : List Char) :
    pctDecode (enc1 c ++ t) = (pctDecode t).map (String.utf8EncodeChar c ++ ·) := by
  unfold enc1
  split
  · rename_i h
    have ha := unreserved_ascii h
    have hp : c ≠ '%' := by rintro rfl; exact absurd h (by decide)
    have hu : String.utf8EncodeChar c = [UInt8.ofNat c.toNat] := by
      rw [String.utf8EncodeChar_eq_singleton]
      · rfl
      · unfold Char.utf8Size
        rw [if_pos]
        rw [UInt32.le_iff_toNat_le]
        have : c.val.toNat < 128 := ha
        simp; omega
    rw [hu, List.singleton_append, pctDecode]
    · rw [if_pos ⟨ha, hp⟩]; rfl
    · intro h l cs hcc _; exact hp hcc
  · exact pctDecode_bytes _ _

theorem pctDecode_encAll (s : List Char) : pctDecode (encAll s) = some (utf8 s) := by
  induction s with
  | nil => rfl
  | cons c cs ih =>
    rw [show encAll (c :: cs) = enc1 c ++ encAll cs by simp [encAll], pctDecode_enc1, ih]
    simp [utf8]

/-- **C23**: the output of `set :encodeurl` consists of unreserved characters and well-formed
`%xx` escapes, is at most `max` bytes long, and percent-decodes to the UTF-8 bytes of a prefix of
the input, which is the whole input if the complete encoding fits. -/
theorem encodeurl_decodes (x : Ext) (max : Nat) (s : List Char) :
    let out := Modifier.encodeUrl.apply x max s
    (∀ c ∈ out, isUnreserved c ∨ c = '%') ∧ byteLen out ≤ max ∧
    ∃ pre, pre <+: s ∧ pctDecode out = some (utf8 pre) ∧
      (3 * (utf8 s).length ≤ max → pre = s) := by
  intro out
  obtain ⟨pre, h1, h2, h3, h4⟩ := encodeUrlGo_spec max [] s (by simp [encAll])
  simp only [List.nil_append] at h1 h4
  have ho : out = encAll pre := h2
  rw [ho]
  refine ⟨?_, h3, pre, h1, pctDecode_encAll pre, ?_⟩
  · intro c hc
    rw [← unreserved_iff]
    exact encAll_chars pre c hc
  · intro hfit
    have hle : byteLen (encAll s) ≤ 3 * (utf8 s).length := by
      clear h1 h2 h3 h4 ho hfit
      induction s with
      | nil => simp [encAll]
      | cons c cs ih =>
        have hlen : byteLen (encAll (c :: cs)) = byteLen (enc1 c) + byteLen (encAll cs) := by
          simp [encAll]
        have hlen2 : (utf8 (c :: cs)).length = c.utf8Size + (utf8 cs).length := by
          simp [utf8]
        rw [hlen, hlen2, enc1_len]
        have := utf8Size_pos c
        split <;> omega
    have := h4 s List.prefix_rfl (by omega)
    exact List.IsPrefix.eq_of_length_le h1 this.length_le

/-- **C23**, sharp form of the size condition: the encoded prefix is the longest whose encoding
fits. -/
theorem encodeurl_longest (x : Ext) (max : Nat) (s : List Char) :
    ∃ pre, pre <+: s ∧ pctDecode (Modifier.encodeUrl.apply x max s) = some (utf8 pre) ∧
      ∀ r, r <+: s → byteLen (encAll r) ≤ max → r <+: pre := by
  obtain ⟨pre, h1, h2, h3, h4⟩ := encodeUrlGo_spec max [] s (by simp [encAll])
  simp only [List.nil_append] at h1 h4
  refine ⟨pre, h1, ?_, ?_⟩
  · show pctDecode (encodeUrlGo max [] s) = _
    rw [show encodeUrlGo max [] s = encAll pre from h2]; exact pctDecode_encAll pre
  · exact h4

example : encodeUrlGo 20 [] "a é".toList = "a%20%c3%a9".toList := by decide
example : pctDecode "a%20%c3%a9".toList = some [97, 32, 0xc3, 0xa9] := by decide
example : encodeUrlGo 9 [] "a é".toList = "a%20".toList := by decide

/-- The variable after `set` whose last modifier is `m`, if the output of `m` is within the limit. -/
theorem execSet_last (x : Ext) (max : Nat) (ms : List Modifier) (m : Modifier) (v : Variable)
    (h : ∀ s, byteLen (m.apply x max s) ≤ max) :
    execSet x max (ms ++ [m]) v = .str (m.apply x max (applyAll x max ms v).text) := by
  have : ∀ (ms : List Modifier) (v : Variable), applyAll x max (ms ++ [m]) v
      = .str (m.apply x max (applyAll x max ms v).text) := by
    intro ms
    induction ms with
    | nil => intro v; rfl
    | cons a ms ih => intro v; exact ih _
  rw [execSet, this, stored, if_neg]
  simp only [Variable.len, Nat.not_lt]
  exact h _

/-- **C23** for the variable: what `set :encodeurl` stores decodes to a prefix of the value it was given (the value
left by the modifiers of higher precedence); storing does not cut the encoded text. -/
theorem set_encodeurl_decodes (x : Ext) (max : Nat) (ms : List Modifier) (v : Variable) :
    let given := (applyAll x max ms v).text
    ∃ out pre, execSet x max (ms ++ [.encodeUrl]) v = .str out ∧ byteLen out ≤ max ∧
      (∀ c ∈ out, isUnreserved c ∨ c = '%') ∧ pre <+: given ∧ pctDecode out = some (utf8 pre) ∧
      (3 * (utf8 given).length ≤ max → pre = given) := by
  intro given
  have hlen : ∀ s, byteLen (Modifier.encodeUrl.apply x max s) ≤ max := fun s => (encodeurl_decodes x max s).2.1
  obtain ⟨h1, h2, pre, h3, h4, h5⟩ := encodeurl_decodes x max given
  exact ⟨_, pre, execSet_last x max ms .encodeUrl v hlen, h2, h1, h3, h4, h5⟩

/-- **C04** for the variable: what `set :quotewildcard` stores, used as a `:matches` pattern, matches a prefix of the
value it was given, and nothing else. -/
theorem set_quotewildcard_literal (x : Ext) (cm : CaseMap) (max : Nat) (ms : List Modifier) (v : Variable) :
    let given := (applyAll x max ms v).text
    ∃ out pre, execSet x max (ms ++ [.quoteWildcard]) v = .str out ∧ pre <+: given ∧
      (byteLen (quoted given) ≤ max → pre = given) ∧
      ∀ v, globMatches cm false (compile cm out false) v = some (decide (v = pre)) := by
  intro given
  have hlen : ∀ s, byteLen (Modifier.quoteWildcard.apply x max s) ≤ max := by
    intro s
    obtain ⟨pre, _, _, _, h, h', _⟩ := quotewildcard_literal x cm max s
    rw [h]; exact h'
  obtain ⟨pre, h1, h2, _, _, _, h3⟩ := quotewildcard_literal x cm max given
  exact ⟨_, pre, execSet_last x max ms .quoteWildcard v hlen, h1, h2, h3⟩

/-- With a limit of 9 bytes the second character is left out as a whole. -/
example (x : Ext) : execSet x 9 [.encodeUrl] (.str "a é".toList) = .str "a%20".toList := by rfl
example (x : Ext) : execSet x 2 [.quoteWildcard] (.str "a*".toList) = .str "a".toList := by rfl

/-! ### Order of modifiers -/

/-- The precedence of RFC 5229 section 4.1 (`:encodeurl`, 15, is RFC 5435; `:replace` is an
extension of this implementation with precedence 40). -/
def precedence : Modifier → Nat
  | .lower | .upper | .replace _ _ => 40
  | .lowerFirst | .upperFirst => 30
  | .quoteWildcard | .quoteRegex => 20
  | .encodeUrl => 15
  | .length => 10

theorem order_precedence {a b : Modifier} (h : b.order ≤ a.order) : precedence b ≤ precedence a := by
  cases a <;> cases b <;> simp_all [Modifier.order, precedence]

theorem mem_collect (ms acc : List Modifier) (m : Modifier) :
    m ∈ collect acc ms ↔ m ∈ acc ∨ m ∈ ms := by
  induction ms generalizing acc with
  | nil => simp [collect]
  | cons a as ih =>
    cases a with
    | replace f r =>
      simp only [collect]; rw [ih]
      simp only [List.mem_append, List.mem_cons, List.not_mem_nil, or_false]; tauto
    | _ =>
      simp only [collect]
      split
      · rename_i hm
        rw [ih, List.mem_cons]
        constructor
        · tauto
        · rintro (h | rfl | h)
          · exact Or.inl h
          · exact Or.inl hm
          · exact Or.inr h
      · rw [ih]
        simp only [List.mem_append, List.mem_cons, List.not_mem_nil, or_false]; tauto

theorem collect_nodup (ms acc : List Modifier) (hacc : acc.Nodup)
    (hr : ∀ f r, Modifier.replace f r ∉ ms) : (collect acc ms).Nodup := by
  induction ms generalizing acc with
  | nil => exact hacc
  | cons a as ih =>
    have hr' : ∀ f r, Modifier.replace f r ∉ as := fun f r h => hr f r (List.mem_cons_of_mem _ h)
    have happ : a ∉ acc → (acc ++ [a]).Nodup := fun h => by
      rw [List.nodup_append]
      refine ⟨hacc, by simp, ?_⟩
      intro x hx y hy
      simp at hy
      subst hy
      rintro rfl; exact h hx
    cases a with
    | replace f r => exact absurd (List.mem_cons_self ..) (hr f r)
    | _ =>
      simp only [collect]
      split
      · exact ih acc hacc hr'
      · exact ih _ (happ (by assumption)) hr'

theorem order_inj {a b : Modifier} (ha : ∀ f r, a ≠ .replace f r) (hb : ∀ f r, b ≠ .replace f r)
    (h : a.order = b.order) : a = b := by
  cases a <;> cases b <;> simp_all [Modifier.order]

/-- **C44** (order): whatever the order (or repetition) in which the argument-free modifiers are
written, they are applied in descending precedence, each once, and the outcome is determined by
the set of modifiers alone.
The full claim would hold with `:replace` too (`replace_upper_unspecified`). -/
theorem modifiers_order_independent_partial (x : Ext) (max : Nat) (written written' s s' : List Modifier)
    (v : Variable)
    (hno : ∀ f r, Modifier.replace f r ∉ written)
    (hset : ∀ m, m ∈ written ↔ m ∈ written')
    (hs : SortedBy written s) (hs' : SortedBy written' s') :
    s.Pairwise (fun a b => precedence b ≤ precedence a) ∧ s.Nodup ∧ (∀ m, m ∈ s ↔ m ∈ written) ∧
    execSet x max s v = execSet x max s' v := by
  have hno' : ∀ f r, Modifier.replace f r ∉ written' := fun f r h => hno f r ((hset _).mpr h)
  have hmem : ∀ m, m ∈ s ↔ m ∈ written := fun m => by
    rw [hs.1.mem_iff, mem_collect]; simp
  have hmem' : ∀ m, m ∈ s' ↔ m ∈ written' := fun m => by
    rw [hs'.1.mem_iff, mem_collect]; simp
  have hnd : s.Nodup := hs.1.nodup_iff.mpr (collect_nodup _ _ List.nodup_nil hno)
  have hnd' : s'.Nodup := hs'.1.nodup_iff.mpr (collect_nodup _ _ List.nodup_nil hno')
  have hperm : s.Perm s' := (List.perm_ext_iff_of_nodup hnd hnd').mpr fun m => by
    rw [hmem, hmem', hset]
  have heq : s = s' := by
    apply hperm.eq_of_pairwise (le := fun a b => b.order ≤ a.order) _ hs.2 hs'.2
    intro a b ha hb h1 h2
    exact order_inj (fun f r h => hno f r (by rw [← h, ← hmem]; exact ha))
      (fun f r h => hno' f r (by rw [← h, ← hmem']; exact hb)) (by omega)
  refine ⟨hs.2.imp order_precedence, hnd, hmem, by rw [heq]⟩

/-- **C44** (`:length`): with `:length` among the modifiers (whatever the others, `:replace`
included) the value handed to the variable is the decimal number of characters of the value
produced by the other modifiers. -/
theorem length_is_last (x : Ext) (max : Nat) (written s : List Modifier) (v : Variable)
    (hlen : Modifier.length ∈ written) (hs : SortedBy written s) :
    ∃ others, s = others ++ [.length] ∧ (∀ m ∈ others, m ≠ .length) ∧
      ∃ n : Nat, applyAll x max s v = .str (toString n).toList ∧
        n = (applyAll x max others v).text.length := by
  have hcount : ∀ (ms acc : List Modifier), acc.count .length ≤ 1 →
      (collect acc ms).count .length ≤ 1 := by
    intro ms
    induction ms with
    | nil => intro acc h; exact h
    | cons a as ih =>
      intro acc h
      have happ : a ∉ acc → (acc ++ [a]).count .length ≤ 1 := fun hn => by
        rw [List.count_append]
        by_cases ha : a = .length
        · subst ha; rw [List.count_eq_zero_of_not_mem hn]; simp
        · rw [List.count_singleton]; simp [ha, h]
      cases a with
      | replace f r =>
        simp only [collect]
        refine ih _ ?_
        rw [List.count_append]; simpa using h
      | _ =>
        simp only [collect]
        split
        · exact ih acc h
        · exact ih _ (happ (by assumption))
  have hmem : Modifier.length ∈ s := by rw [hs.1.mem_iff, mem_collect]; exact Or.inr hlen
  have hc : s.count .length ≤ 1 := by
    rw [hs.1.count_eq]; exact hcount written [] (by simp)
  have hne : s ≠ [] := List.ne_nil_of_mem hmem
  have hsplit : s.dropLast ++ [s.getLast hne] = s := List.dropLast_concat_getLast hne
  have hlast : s.getLast hne = .length := by
    have hp := hs.2
    rw [← hsplit, List.pairwise_append] at hp
    rw [← hsplit, List.mem_append] at hmem
    rcases hmem with hm | hm
    · have := hp.2.2 _ hm _ (List.mem_singleton_self _)
      cases hg : s.getLast hne <;> rw [hg] at this <;> simp_all [Modifier.order]
    · exact (List.mem_singleton.mp hm).symm
  rw [hlast] at hsplit
  refine ⟨s.dropLast, hsplit.symm, ?_, ?_⟩
  · intro m hm hml
    subst hml
    rw [← hsplit, List.count_append] at hc
    have := List.count_pos_iff.mpr hm
    simp at hc; omega
  · refine ⟨_, ?_, rfl⟩
    have happ : ∀ (a b : List Modifier) (v : Variable),
        applyAll x max (a ++ b) v = applyAll x max b (applyAll x max a v) := by
      intro a b
      induction a with
      | nil => intro v; rfl
      | cons m ms ih => intro v; exact ih _
    conv_lhs => rw [← hsplit]
    rw [happ]
    rfl

example : SortedBy [.length, .quoteWildcard, .upper, .length] [.upper, .quoteWildcard, .length] := by
  refine ⟨?_, by decide⟩
  show List.Perm _ [Modifier.length, Modifier.quoteWildcard, Modifier.upper]
  decide

/-- The precedence claim does not determine the outcome when `:replace` is combined with
`:upper`, which has the same precedence: both results are allowed by the (unstable) sort. -/
theorem replace_upper_unspecified :
    ∃ (x : Ext) (written s s' : List Modifier), SortedBy written s ∧ SortedBy written s' ∧
      ∃ v, (execSet x 100 s v).text ≠ (execSet x 100 s' v).text := by
  refine ⟨⟨id, fun s => s.map Char.toUpper, fun c => [c], fun c => [c],
    fun s f r => if s = f then r else s⟩, [.upper, .replace ['a'] ['b']],
    [.upper, .replace ['a'] ['b']], [.replace ['a'] ['b'], .upper], ⟨?_, by decide⟩, ⟨?_, by decide⟩,
    .str ['a'], by decide⟩
  · show List.Perm _ [Modifier.upper, Modifier.replace ['a'] ['b']]
    decide
  · show List.Perm _ [Modifier.upper, Modifier.replace ['a'] ['b']]
    decide

end Sieve.SetVar
