import Verif.StringPlain

/-!
# Strings: lemmas about encoded characters
-/

namespace Sieve.Str

def HexByte (c : UInt8) : Prop := (48 ≤ c ∧ c ≤ 57) ∨ (97 ≤ c ∧ c ≤ 102) ∨ (65 ≤ c ∧ c ≤ 70)

instance : DecidablePred HexByte := fun c => by unfold HexByte; infer_instance

theorem forall_bytes {p : UInt8 → Prop} (h : ∀ n : Fin 256, p (.ofFin n)) (c : UInt8) : p c := h c.toFin

theorem isHex_spec (c : UInt8) : isHex c = true ↔ HexByte c := by
  simp [isHex, HexByte, isDigit, or_assoc]

theorem isBlank_spec (c : UInt8) : isBlank c = true ↔ c ∈ ([32, 9, 13, 10] : Bytes) := by
  simp [isBlank, or_assoc]

theorem hex_not_blank {c : UInt8} (h : HexByte c) : c ∉ ([32, 9, 13, 10] : Bytes) := by
  revert h
  exact forall_bytes (p := fun c => HexByte c → c ∉ ([32, 9, 13, 10] : Bytes)) (by decide +kernel) c

theorem hexDigit_eq {c : UInt8} (h : HexByte c) :
    hexDigit c = if c ≤ 57 then c.toNat - 48 else if c ≤ 70 then c.toNat - 55 else c.toNat - 87 := by
  revert h
  exact forall_bytes (p := fun c => HexByte c → hexDigit c = if c ≤ 57 then c.toNat - 48 else if c ≤ 70 then c.toNat - 55 else c.toNat - 87)
    (by decide +kernel) c

theorem hexValue_eq {w : Bytes} (h : ∀ c ∈ w, HexByte c) : hexValue w = numeral w := by
  have key : ∀ (w : Bytes) (n : Nat), (∀ c ∈ w, HexByte c) →
      w.foldl (fun n c => n * 16 + hexDigit c) n = n * 16 ^ w.length + numeral w := by
    intro w
    induction w with
    | nil => simp [numeral]
    | cons c w ih =>
      intro n h
      simp only [List.foldl_cons, numeral, List.length_cons]
      rw [ih _ (fun d hd => h d (by simp [hd])), hexDigit_eq (h c (by simp))]
      ring
  simpa [hexValue] using key w 0 h

/-- The code of the two keywords. -/
def codeOf (unicode : Bool) : Nat → Option Bytes := if unicode then utf8 else byteCode

theorem decodeWord_some {u : Bool} {w b : Bytes} (hw : ∀ c ∈ w, HexByte c) (h : decodeWord u w = some (some b)) :
    codeOf u (numeral w) = some b := by
  rw [← hexValue_eq hw]
  cases u with
  | false =>
    simp only [decodeWord, Bool.false_eq_true, if_false] at h
    simp only [codeOf, Bool.false_eq_true, if_false, byteCode]
    split_ifs at h ⊢
    · simpa using h
    · simp at h
  | true =>
    simp only [decodeWord, if_true] at h
    simp only [codeOf, if_true]
    split_ifs at h
    · cases hu : utf8 (hexValue w) with
      | none => simp [hu] at h
      | some v => simpa [hu] using h
    · simp at h

theorem decodeWord_none {u : Bool} {w : Bytes} (hw : ∀ c ∈ w, HexByte c) (h : decodeWord u w = some none) :
    codeOf u (numeral w) = none := by
  rw [← hexValue_eq hw]
  cases u with
  | false =>
    simp only [decodeWord, Bool.false_eq_true, if_false] at h
    simp only [codeOf, Bool.false_eq_true, if_false, byteCode]
    split_ifs at h ⊢
    · simp at h
    · rfl
  | true =>
    simp only [decodeWord, if_true] at h
    simp only [codeOf, if_true]
    split_ifs at h with hn
    · cases hu : utf8 (hexValue w) with
      | none => rfl
      | some v => simp [hu] at h
    · unfold utf8
      rw [if_neg (by omega), if_neg (by omega), if_neg (by omega), if_neg (by omega), if_neg (by omega)]

theorem utf8_nonempty {n : Nat} {b : Bytes} (h : utf8 n = some b) : b ≠ [] := by
  unfold utf8 at h
  split_ifs at h <;> (first | (cases h; simp) | cases h)

theorem code_nonempty {u : Bool} {n : Nat} {b : Bytes} (h : codeOf u n = some b) : b ≠ [] := by
  cases u with
  | true => exact utf8_nonempty h
  | false =>
    simp only [codeOf, Bool.false_eq_true, if_false, byteCode] at h
    split_ifs at h
    cases h; simp

theorem keyword_cases {k : Bytes} {code : Nat → Option Bytes} (h : Keyword k code) : ∃ u, code = codeOf u := by
  cases h with
  | hex _ => exact ⟨false, rfl⟩
  | unicode _ => exact ⟨true, rfl⟩

theorem lower_letter {c : UInt8} (h : 97 ≤ lowerByte c ∧ lowerByte c ≤ 122) : (97 ≤ c ∧ c ≤ 122) ∨ (65 ≤ c ∧ c ≤ 90) := by
  revert h
  exact forall_bytes (p := fun c => 97 ≤ lowerByte c ∧ lowerByte c ≤ 122 → (97 ≤ c ∧ c ≤ 122) ∨ (65 ≤ c ∧ c ≤ 90))
    (by decide +kernel) c

theorem keyword_letters {k : Bytes} {code : Nat → Option Bytes} (h : Keyword k code) :
    k ≠ [] ∧ ∀ c ∈ k, (97 ≤ c ∧ c ≤ 122) ∨ (65 ≤ c ∧ c ≤ 90) := by
  have key : ∀ (w : Bytes), (∀ c ∈ w, 97 ≤ c ∧ c ≤ 122) → k.map lowerByte = w → ∀ c ∈ k, (97 ≤ c ∧ c ≤ 122) ∨ (65 ≤ c ∧ c ≤ 90) := by
    intro w hw e c hc
    refine lower_letter (hw _ ?_)
    rw [← e]
    exact List.mem_map_of_mem hc
  cases h with
  | hex h => exact ⟨by rintro rfl; simp at h, key _ (by decide) h⟩
  | unicode h => exact ⟨by rintro rfl; simp at h, key _ (by decide) h⟩

theorem keyword_not_mem {k : Bytes} {code : Nat → Option Bytes} (h : Keyword k code) {d : UInt8}
    (hd : ¬ ((97 ≤ d ∧ d ≤ 122) ∨ (65 ≤ d ∧ d ≤ 90))) : d ∉ k := fun m => hd ((keyword_letters h).2 d m)

theorem numbers_bytes {code : Nat → Option Bytes} {body b : Bytes} (h : Numbers code body b) :
    ∀ c ∈ body, HexByte c ∨ c ∈ ([32, 9, 13, 10] : Bytes) := by
  induction h with
  | nil => simp
  | blank hc _ ih =>
    intro d hd
    rcases List.mem_cons.mp hd with rfl | hd
    · exact Or.inr hc
    · exact ih d hd
  | number _ hw _ _ _ ih =>
    intro d hd
    rcases List.mem_append.mp hd with hd | hd
    · exact Or.inl (hw d hd)
    · exact ih d hd

/-- Text after which a number may begin. -/
def Boundary (u : Bytes) : Prop := u = [] ∨ ∃ v c, u = v ++ [c] ∧ c ∈ ([32, 9, 13, 10] : Bytes)

theorem boundary_tail {w rest : Bytes} (hr : rest ≠ []) (h : Boundary (w ++ rest)) : Boundary rest := by
  rcases h with h | ⟨v, c, h, hc⟩
  · exact absurd (List.append_eq_nil_iff.mp h).2 hr
  · obtain ⟨r, y, e⟩ := List.eq_nil_or_concat rest |>.resolve_left hr
    right
    refine ⟨r, y, by simpa using e, ?_⟩
    rw [e] at h
    have : (w ++ r) ++ [y] = v ++ [c] := by simpa using h
    have := (List.append_inj' this rfl).2
    simp at this
    rw [this]; exact hc

theorem boundary_hex {w : Bytes} (h0 : w ≠ []) (hw : ∀ c ∈ w, HexByte c) : ¬ Boundary w := by
  rintro (h | ⟨v, c, h, hc⟩)
  · exact h0 h
  · exact hex_not_blank (hw c (by rw [h]; simp)) hc

theorem numbers_append {code : Nat → Option Bytes} {u b : Bytes} (h : Numbers code u b) (hu : Boundary u) {v b' : Bytes}
    (hv : Numbers code v b') : Numbers code (u ++ v) (b ++ b') := by
  induction h with
  | nil => simpa using hv
  | @blank c rest b hc hr ih =>
    refine .blank hc ?_
    by_cases h0 : rest = []
    · subst h0
      have := ih (Or.inl rfl)
      exact this
    · exact ih (boundary_tail (w := [c]) h0 hu)
  | @number w rest a b h0 hw hn hc hr ih =>
    by_cases h1 : rest = []
    · subst h1
      rw [List.append_nil] at hu
      exact absurd hu (boundary_hex h0 hw)
    · rw [List.append_assoc, List.append_assoc]
      refine .number h0 hw ?_ hc (ih (boundary_tail h1 hu))
      intro d r e
      cases hrest : rest with
      | nil => exact absurd hrest h1
      | cons y t =>
        rw [hrest] at e
        simp only [List.cons_append, List.cons.injEq] at e
        exact hn d t (by rw [hrest, e.1])

theorem hex_span {w w' r r' : Bytes} (hw : ∀ c ∈ w, HexByte c) (hw' : ∀ c ∈ w', HexByte c)
    (hr : ∀ c t, r = c :: t → c ∈ ([32, 9, 13, 10] : Bytes)) (hr' : ∀ c t, r' = c :: t → c ∈ ([32, 9, 13, 10] : Bytes))
    (h : w ++ r = w' ++ r') : w = w' ∧ r = r' := by
  induction w generalizing w' with
  | nil =>
    cases w' with
    | nil => exact ⟨rfl, h⟩
    | cons y w' => exact absurd (hr y _ h) (hex_not_blank (hw' y (by simp)))
  | cons c w ih =>
    cases w' with
    | nil => exact absurd (hr' c _ h.symm) (hex_not_blank (hw c (by simp)))
    | cons y w' =>
      simp only [List.cons_append, List.cons.injEq] at h
      obtain ⟨rfl, h⟩ := h
      obtain ⟨rfl, rfl⟩ := ih (fun d hd => hw d (by simp [hd])) (fun d hd => hw' d (by simp [hd])) h
      exact ⟨rfl, rfl⟩

/-- The numbers at the front are determined. -/
theorem numbers_word {code : Nat → Option Bytes} {w v b : Bytes} (h0 : w ≠ []) (hw : ∀ c ∈ w, HexByte c)
    (hv : ∀ c t, v = c :: t → c ∈ ([32, 9, 13, 10] : Bytes)) (h : Numbers code (w ++ v) b) :
    ∃ a b', code (numeral w) = some a ∧ Numbers code v b' ∧ b = a ++ b' := by
  generalize hs : w ++ v = s at h
  cases h with
  | nil => exact absurd (List.append_eq_nil_iff.mp hs).1 h0
  | @blank c rest b hc hr =>
    cases w with
    | nil => exact absurd rfl h0
    | cons y w =>
      have : y = c := (List.cons.inj hs).1
      exact absurd hc (by rw [← this]; exact hex_not_blank (hw y (by simp)))
  | @number w' rest a b h0' hw' hn hc hr =>
    obtain ⟨rfl, rfl⟩ := hex_span hw hw' hv hn hs
    exact ⟨a, b, hc, hr, rfl⟩

theorem numbers_blank {code : Nat → Option Bytes} {c : UInt8} {v b : Bytes} (hc : c ∈ ([32, 9, 13, 10] : Bytes))
    (h : Numbers code (c :: v) b) : Numbers code v b := by
  generalize hs : c :: v = s at h
  cases h with
  | nil => cases hs
  | blank _ hr => cases hs; exact hr
  | @number w' rest a b h0 hw _ _ _ =>
    cases w' with
    | nil => exact absurd rfl h0
    | cons y w =>
      have : c = y := (List.cons.inj hs).1
      exact absurd hc (by rw [this]; exact hex_not_blank (hw y (by simp)))

theorem numbers_unique {code : Nat → Option Bytes} {u b b' : Bytes} (h : Numbers code u b) (h' : Numbers code u b') :
    b = b' := by
  induction h generalizing b' with
  | nil =>
    generalize hs : ([] : Bytes) = s at h'
    cases h' with
    | nil => rfl
    | blank => cases hs
    | number h0 _ _ _ _ => exact absurd (List.append_eq_nil_iff.mp hs.symm).1 h0
  | blank hc _ ih => exact ih (numbers_blank hc h')
  | number h0 hw hn hc _ ih =>
    obtain ⟨a, b1, hc', hr, rfl⟩ := numbers_word h0 hw hn h'
    rw [hc] at hc'
    cases hc'
    rw [ih hr]

/-- After a boundary the rest is a list of numbers as well. -/
theorem numbers_drop {code : Nat → Option Bytes} {u b : Bytes} (h : Numbers code u b) (hu : Boundary u) {v b' : Bytes}
    (hv : Numbers code (u ++ v) b') : ∃ b2, Numbers code v b2 ∧ b' = b ++ b2 := by
  induction h generalizing b' with
  | nil => exact ⟨b', by simpa using hv, by simp⟩
  | @blank c rest b hc hr ih =>
    have h1 := numbers_blank hc hv
    by_cases h0 : rest = []
    · subst h0; exact ih (Or.inl rfl) h1
    · exact ih (boundary_tail (w := [c]) h0 hu) h1
  | @number w rest a b h0 hw hn hc hr ih =>
    by_cases h1 : rest = []
    · subst h1
      rw [List.append_nil] at hu
      exact absurd hu (boundary_hex h0 hw)
    · rw [List.append_assoc] at hv
      obtain ⟨a', b1, hc', hr', rfl⟩ := numbers_word (v := rest ++ v) h0 hw (by
        intro d r e
        cases hrest : rest with
        | nil => exact absurd hrest h1
        | cons y t =>
          rw [hrest] at e
          simp only [List.cons_append, List.cons.injEq] at e
          exact hn d t (by rw [hrest, e.1])) hv
      rw [hc] at hc'
      cases hc'
      obtain ⟨b2, h2, rfl⟩ := ih (boundary_tail h1 hu) hr'
      exact ⟨b2, h2, by simp⟩

theorem keyword_unique {k : Bytes} {code code' : Nat → Option Bytes} (h : Keyword k code) (h' : Keyword k code') :
    code = code' := by
  cases h with
  | hex h => cases h' with
    | hex _ => rfl
    | unicode h' => rw [h] at h'; simp at h'
  | unicode h => cases h' with
    | unicode _ => rfl
    | hex h' => rw [h] at h'; simp at h'

theorem numbers_not_mem {code : Nat → Option Bytes} {body b : Bytes} (h : Numbers code body b) {d : UInt8}
    (hd : ¬ (HexByte d ∨ d ∈ ([32, 9, 13, 10] : Bytes))) : d ∉ body := fun m => hd (numbers_bytes h d m)

theorem encoded_prefixFree : PrefixFree EncodedChar := by
  constructor
  · rintro w o ⟨k, code, body, b, _, _, _, rfl, _⟩; simp
  · rintro w w' o o' r r' ⟨k, code, body, b, hk, hn, _, rfl, rfl⟩ ⟨k', code', body', b', hk', hn', _, rfl, rfl⟩ h
    have h' : k ++ 58 :: (body ++ 125 :: r) = k' ++ 58 :: (body' ++ 125 :: r') := by simpa using h
    obtain ⟨rfl, h2⟩ := stop_unique (keyword_not_mem hk (by decide)) (keyword_not_mem hk' (by decide)) h'
    obtain ⟨rfl, rfl⟩ := stop_unique (numbers_not_mem hn (by decide)) (numbers_not_mem hn' (by decide)) h2
    have := keyword_unique hk hk'
    subst this
    exact ⟨rfl, by rw [numbers_unique hn hn']⟩

theorem encoded_dollar {c : UInt8} (hc : c ≠ 36) (t : Bytes) : NoToken EncodedChar (c :: t) := by
  rintro w o r ⟨k, code, body, b, _, _, _, rfl, _⟩ h
  simp at h
  exact hc h.1

theorem encoded_brace {c : UInt8} (hc : c ≠ 123) (t : Bytes) : NoToken EncodedChar (36 :: c :: t) := by
  rintro w o r ⟨k, code, body, b, _, _, _, rfl, _⟩ h
  simp at h
  exact hc h.1

theorem encoded_end : NoToken EncodedChar [36] := by
  rintro w o r ⟨k, code, body, b, _, _, _, rfl, _⟩ h
  simp at h

theorem no_encoded {n : Bytes} (hn : (36 : UInt8) ∉ n) {t : Bytes} (h : NoToken EncodedChar ([36, 123] ++ n ++ t)) :
    ∀ a c b, [36, 123] ++ n = a ++ c :: b → NoToken EncodedChar (c :: b ++ t) := by
  intro a c b e
  cases a with
  | nil =>
    have e' : [36, 123] ++ n = c :: b := e
    rw [← e']; exact h
  | cons y a =>
    refine encoded_dollar ?_ _
    rintro rfl
    have e' : 123 :: n = a ++ 36 :: b := by simpa using (List.cons.inj e).2
    have : (36 : UInt8) ∈ 123 :: n := by rw [e']; simp
    rcases List.mem_cons.mp this with h1 | h1
    · exact absurd h1 (by decide)
    · exact hn h1

/-- The first colon of a text. -/
theorem first_colon {n : Bytes} (h : (58 : UInt8) ∈ n) : ∃ a b, n = a ++ 58 :: b ∧ (58 : UInt8) ∉ a := by
  induction n with
  | nil => simp at h
  | cons c n ih =>
    by_cases hc : c = 58
    · exact ⟨[], n, by rw [hc]; rfl, by simp⟩
    · have : (58 : UInt8) ∈ n := by
        rcases List.mem_cons.mp h with h | h
        · exact absurd h.symm hc
        · exact h
      obtain ⟨a, b, rfl, ha⟩ := ih this
      exact ⟨c :: a, b, rfl, by simp [ha, Ne.symm hc]⟩

/-- A name is no keyword followed by a colon. -/
theorem name_no_encoded {n : Bytes} (hn : Begins n) {c : UInt8} (t : Bytes)
    (hc : ¬ NameByte c ∨ c = 58 ∧ ¬ ∃ code, Keyword n code) : NoToken EncodedChar ([36, 123] ++ n ++ c :: t) := by
  rintro w o r ⟨k, code, body, b, hk, _, _, rfl, _⟩ h
  have h' : n ++ c :: t = k ++ 58 :: (body ++ 125 :: r) := by simpa using h
  have hk58 := keyword_not_mem hk (d := 58) (by decide)
  by_cases h58 : (58 : UInt8) ∈ n
  · obtain ⟨a, b', rfl, ha⟩ := first_colon h58
    have h2 : a ++ 58 :: (b' ++ c :: t) = k ++ 58 :: (body ++ 125 :: r) := by simpa using h'
    obtain ⟨rfl, -⟩ := stop_unique ha hk58 h2
    exact keyword_not_mem hk (d := 46) (by decide) (hn.colons a b' rfl)
  · rcases List.append_eq_append_iff.mp h' with ⟨as, h1, h2⟩ | ⟨bs, h1, h2⟩
    · cases as with
      | nil =>
        simp at h1 h2
        subst h1
        rcases hc with hc | ⟨_, hc⟩
        · exact hc (by rw [h2.1]; decide)
        · exact hc ⟨code, hk⟩
      | cons y as =>
        simp only [List.cons_append, List.cons.injEq] at h2
        obtain ⟨rfl, -⟩ := h2
        have hy := (keyword_letters hk).2 c (by rw [h1]; simp)
        rcases hc with hc | ⟨rfl, _⟩
        · exact hc (by rcases hy with h | h; exacts [Or.inl h, Or.inr (Or.inl h)])
        · exact absurd hy (by decide)
    · cases bs with
      | nil =>
        simp at h1 h2
        subst h1
        rcases hc with hc | ⟨_, hc⟩
        · exact hc (by rw [← h2.1]; decide)
        · exact hc ⟨code, hk⟩
      | cons y bs =>
        simp only [List.cons_append, List.cons.injEq] at h2
        exact h58 (by rw [h1, h2.1]; simp)

theorem open_encoded {n : Bytes} (hn : (125 : UInt8) ∉ n) : NoToken EncodedChar ([36, 123] ++ n) := by
  rintro w o r ⟨k, code, body, b, _, _, _, rfl, _⟩ h
  have h' : n = k ++ 58 :: (body ++ 125 :: r) := by simpa using h
  exact hn (by rw [h']; simp)

/-- The text of an encoded character up to the byte that ends it. -/
theorem stops {P : UInt8 → Prop} {n m t r : Bytes} {c : UInt8} (hn : ∀ d ∈ n, P d) (hm : ∀ d ∈ m, P d) (h125 : ¬ P 125)
    (h : n ++ c :: t = m ++ 125 :: r) : (c = 125 ∧ n = m ∧ t = r) ∨ (P c ∧ ∃ v, m = n ++ c :: v) := by
  rcases List.append_eq_append_iff.mp h with ⟨as, h1, h2⟩ | ⟨bs, h1, h2⟩
  · cases as with
    | nil =>
      simp at h1 h2
      exact Or.inl ⟨h2.1, h1.symm, h2.2⟩
    | cons y as =>
      simp only [List.cons_append, List.cons.injEq] at h2
      obtain ⟨rfl, -⟩ := h2
      exact Or.inr ⟨hm c (by rw [h1]; simp), as, h1⟩
  · cases bs with
    | nil =>
      simp at h1 h2
      exact Or.inl ⟨h2.1.symm, h1, h2.2.symm⟩
    | cons y bs =>
      simp only [List.cons_append, List.cons.injEq] at h2
      obtain ⟨rfl, -⟩ := h2
      exact absurd (hn 125 (by rw [h1]; simp)) h125

/-- Encoded characters that are malformed where the loop notices it. -/
theorem bad_encoded {k u w b : Bytes} {uni : Bool} (hk : Keyword k (codeOf uni)) (hu : Numbers (codeOf uni) u b)
    (hbd : Boundary u) (hw : ∀ c ∈ w, HexByte c) {c : UInt8} (t : Bytes)
    (hc : (¬ HexByte c ∧ c ∉ ([32, 9, 13, 10] : Bytes) ∧ c ≠ 125) ∨ (c = 125 ∧ b = [] ∧ w = []) ∨
      (c ∈ ([32, 9, 13, 10] : Bytes) ∧ w ≠ [] ∧ codeOf uni (numeral w) = none) ∨
      (c = 125 ∧ w ≠ [] ∧ codeOf uni (numeral w) = none)) :
    NoToken EncodedChar ([36, 123] ++ (k ++ 58 :: (u ++ w)) ++ c :: t) := by
  rintro w' o r ⟨k', code, body, b', hk', hn, hb', rfl, _⟩ h
  have h' : k ++ 58 :: (u ++ w ++ c :: t) = k' ++ 58 :: (body ++ 125 :: r) := by simpa using h
  obtain ⟨rfl, h2⟩ := stop_unique (keyword_not_mem hk (by decide)) (keyword_not_mem hk' (by decide)) h'
  have := keyword_unique hk' hk
  subst this
  have huw : ∀ d ∈ u ++ w, HexByte d ∨ d ∈ ([32, 9, 13, 10] : Bytes) := by
    intro d hd
    rcases List.mem_append.mp hd with hd | hd
    · exact numbers_bytes hu d hd
    · exact Or.inl (hw d hd)
  have hst := stops (P := fun d => HexByte d ∨ d ∈ ([32, 9, 13, 10] : Bytes)) huw (numbers_bytes hn) (by decide) h2
  rcases hc with ⟨c1, c2, c3⟩ | ⟨rfl, rfl, rfl⟩ | ⟨c1, c2, c3⟩ | ⟨rfl, c2, c3⟩
  · rcases hst with ⟨h, _⟩ | ⟨h, _⟩
    · exact c3 h
    · exact h.elim c1 c2
  · rcases hst with ⟨_, h, _⟩ | ⟨h, _⟩
    · rw [List.append_nil] at h
      subst h
      exact hb' (numbers_unique hn hu)
    · exact absurd h (by decide)
  · rcases hst with ⟨rfl, _⟩ | ⟨_, v, h⟩
    · exact absurd c1 (by decide)
    · rw [h, List.append_assoc] at hn
      obtain ⟨b2, h3, _⟩ := numbers_drop hu hbd hn
      obtain ⟨a, _, h4, _⟩ := numbers_word (v := c :: v) c2 hw (by
        intro d t e
        rw [← (List.cons.inj e).1]; exact c1) h3
      rw [c3] at h4
      cases h4
  · rcases hst with ⟨_, h, _⟩ | ⟨h, _⟩
    · rw [← h] at hn
      obtain ⟨b2, h3, _⟩ := numbers_drop hu hbd hn
      obtain ⟨a, _, h4, _⟩ := numbers_word (v := []) c2 hw (by simp) (by simpa using h3)
      rw [c3] at h4
      cases h4
    · exact absurd h (by decide)

end Sieve.Str
