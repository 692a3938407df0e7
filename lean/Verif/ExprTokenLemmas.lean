import Verif.ExprTokens

/-! # Expressions: from text to tokens, lemmas -/

namespace Sieve.Expr

variable {X K : Type}

theorem forall_bytes {p : UInt8 → Prop} (h : ∀ n : Fin 256, p (.ofFin n)) (c : UInt8) : p c := h c.toFin

theorem letter_other (c : UInt8) : isLetter c = true → isDigit c = false ∧ c ≠ 46 :=
  forall_bytes (p := fun c => isLetter c = true → isDigit c = false ∧ c ≠ 46) (by decide +kernel) c

theorem digit_other (c : UInt8) : isDigit c = true → isLetter c = false ∧ c ≠ 46 :=
  forall_bytes (p := fun c => isDigit c = true → isLetter c = false ∧ c ≠ 46) (by decide +kernel) c

/-- The flags are those of the word. -/
def state (w : Bytes) (d : Nat) (st : Bool) : Lex := ⟨w, d, w.any isDigit, decide (46 ∈ w), w.any isLetter, st⟩

theorem header_prefix (w : Bytes) : w.take 7 = ascii "header." ↔ ascii "header." <+: w := by
  rw [List.prefix_iff_eq_take]
  exact eq_comm

theorem push_stop {w : Bytes} {c : UInt8} (h : ¬ Continues w c) (d : Nat) (st : Bool) : push (state w d st) c = none := by
  simp only [Continues, not_or] at h
  obtain ⟨h1, h2, h3, h4, h5, h6, h7, h8⟩ := h
  have hb : (state w d st).buf = w := rfl
  unfold push
  rw [if_neg h1, if_neg h2, if_neg h3, if_neg (by rw [hb, header_prefix]; tauto), if_neg (by rw [hb, header_prefix]; tauto), if_neg (by rw [hb]; tauto),
    if_neg (by rw [hb]; tauto), if_neg (by rw [hb]; tauto)]

theorem push_cont {w : Bytes} {c : UInt8} (h : Continues w c) (d : Nat) (st : Bool) : push (state w d st) c = some (state (w ++ [c]) d st) := by
  unfold push
  by_cases h1 : isLetter c = true
  · have := letter_other c h1
    rw [if_pos h1]
    simp [state, this.1, h1, Ne.symm this.2]
  rw [if_neg h1]
  by_cases h2 : isDigit c = true
  · have := digit_other c h2
    rw [if_pos h2]
    simp [state, this.1, h2, Ne.symm this.2]
  rw [if_neg h2]
  by_cases h3 : c = 46
  · rw [if_pos h3]
    subst h3
    simp [state, h1, h2]
  rw [if_neg h3]
  have e : some { state w d st with buf := w ++ [c] } = some (state (w ++ [c]) d st) := by
    simp [state, h1, h2, Ne.symm h3]
  simp only [Continues] at h
  simp only [header_prefix, show (state w d st).buf = w from rfl] at e ⊢
  split
  · exact e
  split
  · exact e
  split
  · exact e
  split
  · exact e
  split
  · exact e
  · exfalso
    tauto

theorem parse_state (m : Map X K) (w : Bytes) (d : Nat) (st : Bool) :
    parseBuf m (state w d st) = (meaning m w).map fun k => (k, state [] d st) := by
  unfold parseBuf meaning
  by_cases h1 : w.any isDigit = true ∧ w.any isLetter = false
  · rw [if_pos (show (state w d st).hasNumber = true ∧ (state w d st).hasAlpha = false from h1), if_pos h1]
    by_cases h2 : 46 ∈ w
    · rw [if_pos (show (state w d st).hasDot = true by simpa [state] using h2), if_pos h2]
      simp [Function.comp_def, h1.2, state]
    · rw [if_neg (show ¬ (state w d st).hasDot = true by simpa [state] using h2), if_neg h2]
      simp [Function.comp_def, h1.2, h2, state]
  · rw [if_neg (show ¬ ((state w d st).hasNumber = true ∧ (state w d st).hasAlpha = false) from h1), if_neg h1]
    simp only
    by_cases h3 : w = ascii "true"
    · subst h3
      rfl
    · rw [if_neg (fun h => h3 h.2.2), if_neg h3]
      by_cases h4 : w = ascii "false"
      · subst h4
        rfl
      · rw [if_neg (fun h => h4 h.2.2), if_neg h4]
        simp only [Option.map_map]
        rfl

theorem nil_continues {w : Bytes} {c : UInt8} (h : Continues [] c) : Continues w c := by
  simp only [Continues] at h ⊢
  have : ¬ ascii "header." <+: [] := by decide
  simp at h
  tauto

theorem word_state (m : Map X K) {w : Bytes} (h : w ≠ []) (d : Nat) (st : Bool) :
    word m (state w d st) = (meaning m w).map fun k => ([k], state [] d false) := by
  unfold word
  rw [if_neg (show (state w d st).buf ≠ [] from h)]
  have : ({ state w d st with start := false } : Lex) = state w d false := rfl
  rw [this, parse_state, Option.map_map]
  rfl

/-- A word ends where it is not continued; the text after it is read as if the word were not there. -/
theorem tokens_word (m : Map X K) {w : Bytes} (h : w ≠ []) (n d : Nat) (st : Bool) (t : Bytes) (ht : ∀ c, t.head? = some c → ¬ Continues w c) :
    tokens m (n + 1) (state w d st) t = (meaning m w).bind fun k => (tokens m (n + 1) (state [] d false) t).map (k :: ·) := by
  cases t with
  | nil =>
    simp only [tokens, finish]
    rw [show (state w d st).depth = d from rfl, show (state [] d false).depth = d from rfl, show (state w d st).buf = w from rfl, show (state [] d false).buf = [] from rfl,
      parse_state, if_pos h]
    by_cases hd : d > 0
    · simp only [if_pos hd, Option.map_none, Option.bind_none]
      cases meaning m w <;> rfl
    · simp only [if_neg hd]
      cases meaning m w <;> rfl
  | cons c t =>
    have h1 := ht c rfl
    have h2 : ¬ Continues [] c := fun h => h1 (nil_continues h)
    rw [tokens, tokens, push_stop h1, push_stop h2]
    simp only
    by_cases hb : c = 125
    · rw [if_pos hb, if_pos hb]
      simp only [finish]
      rw [show (state w d st).depth = d from rfl, show (state [] d false).depth = d from rfl, show (state w d st).buf = w from rfl, show (state [] d false).buf = [] from rfl,
        parse_state, if_pos h]
      by_cases hd : d > 0
      · simp only [if_pos hd, Option.map_none, Option.bind_none]
        cases meaning m w <;> rfl
      · simp only [if_neg hd]
        cases meaning m w <;> rfl
    · rw [if_neg hb, if_neg hb, word_state m h]
      cases meaning m w with
      | none => rfl
      | some k =>
        simp only [Option.map_some, Option.bind_some, word, show (state [] d false).buf = [] from rfl, if_true]
        split
        · cases tokens m n (state [] d false) t <;> rfl
        · rw [Option.map_bind]
          congr 1
          funext r
          simp only [Function.comp]
          rw [Option.map_bind]
          congr 1
          funext d'
          simp only [Function.comp]
          rw [Option.map_map]
          rfl

theorem tokens_push (m : Map X K) {w : Bytes} {c : UInt8} (h : Continues w c) (n d : Nat) (st : Bool) (t : Bytes) :
    tokens m (n + 1) (state w d st) (c :: t) = tokens m n (state (w ++ [c]) d st) t := by
  rw [tokens, push_cont h]

theorem tokens_pushes (m : Map X K) (d : Nat) (st : Bool) (t : Bytes) : ∀ (w v : Bytes) (n : Nat), (∀ a c b, w = a ++ c :: b → Continues (v ++ a) c) →
    tokens m (n + w.length) (state v d st) (w ++ t) = tokens m n (state (v ++ w) d st) t
  | [], v, n, _ => by simp
  | c :: w, v, n, h => by
    rw [List.length_cons, ← Nat.add_assoc, List.cons_append, tokens_push m (by simpa using h [] c w rfl)]
    rw [tokens_pushes m d st t w (v ++ [c]) n]
    · simp
    · intro a c' b e
      have := h (c :: a) c' b (by simp [e])
      simpa using this

theorem tokens_blank (m : Map X K) {c : UInt8} (h : c = 32 ∨ c = 13 ∨ c = 10) (n d : Nat) (st : Bool) (t : Bytes) :
    tokens m (n + 1) (state [] d st) (c :: t) = tokens m n (state [] d st) t := by
  have h1 : ¬ Continues [] c := by
    rcases h with rfl | rfl | rfl <;> (simp [Continues]; decide)
  have h2 : c ≠ 125 := by
    rcases h with rfl | rfl | rfl <;> decide
  rw [tokens, push_stop h1]
  simp only [if_neg h2, word, show (state [] d st).buf = [] from rfl, if_true, Option.bind_some, if_pos h]
  cases tokens m n (state [] d st) t <;> rfl

theorem tokens_symbol (m : Map X K) {c : UInt8} (h1 : ¬ Continues [] c) (h2 : c ≠ 125) (h3 : ¬ (c = 32 ∨ c = 13 ∨ c = 10)) (n d : Nat) (st : Bool) (t : Bytes) :
    tokens m (n + 1) (state [] d st) (c :: t) = (symbol m st c t).bind fun r => (paren d r.1).bind fun d' =>
      (tokens m n (state [] d' (opens r.1)) r.2).map (r.1 :: ·) := by
  rw [tokens, push_stop h1]
  simp only [if_neg h2, word, show (state [] d st).buf = [] from rfl, if_true, Option.bind_some, if_neg h3]
  rfl

theorem balanced_paren {d : Nat} {k : Tok X K} {ts} : Balanced d (k :: ts) ↔ ∃ d', paren d k = some d' ∧ Balanced d' ts := by
  cases k <;> simp [Balanced, paren]

theorem scan_spec (stop : UInt8) : ∀ (t : Bytes) (last : UInt8) (buf b r : Bytes),
    scanString stop last buf t = some (b, r) ↔ ∃ s b', t = s ++ stop :: r ∧ Inside true stop last s b' ∧ b = buf ++ b'
  | [], last, buf, b, r => by simp [scanString]
  | c :: t, last, buf, b, r => by
    unfold scanString
    by_cases hl : last ≠ 92
    · rw [if_pos hl]
      by_cases hc : c ≠ stop
      · rw [if_pos hc, scan_spec stop t]
        constructor
        · rintro ⟨s, b', rfl, h2, rfl⟩
          exact ⟨c :: s, c :: b', rfl, .plain hl hc (fun e => absurd e (by decide)) h2, by simp⟩
        · rintro ⟨s, b', h1, h2, rfl⟩
          cases h2 with
          | nil _ =>
            simp only [List.nil_append, List.cons.injEq] at h1
            exact absurd h1.1 hc
          | plain _ _ _ h3 =>
            simp only [List.cons_append, List.cons.injEq] at h1
            obtain ⟨rfl, h1⟩ := h1
            exact ⟨_, _, h1, h3, by simp⟩
          | escaped _ => exact absurd rfl hl
      · rw [if_neg hc]
        have hc' : c = stop := not_not.mp hc
        constructor
        · intro h
          simp only [Option.some.injEq, Prod.mk.injEq] at h
          obtain ⟨rfl, rfl⟩ := h
          exact ⟨[], [], by simp [hc'], .nil hl, by simp⟩
        · rintro ⟨s, b', h1, h2, rfl⟩
          cases h2 with
          | nil _ =>
            simp only [List.nil_append, List.cons.injEq] at h1
            simp [h1.2]
          | plain _ h4 _ h3 =>
            simp only [List.cons_append, List.cons.injEq] at h1
            exact absurd (h1.1.symm.trans hc') h4
          | escaped _ => exact absurd rfl hl
    · rw [if_neg hl, scan_spec stop t]
      have hl' : last = 92 := not_not.mp hl
      subst hl'
      constructor
      · rintro ⟨s, b', rfl, h2, rfl⟩
        exact ⟨c :: s, _, rfl, .escaped h2, by simp⟩
      · rintro ⟨s, b', h1, h2, rfl⟩
        cases h2 with
        | nil h => exact absurd rfl h
        | plain h => exact absurd rfl h
        | escaped h3 =>
          simp only [List.cons_append, List.cons.injEq] at h1
          obtain ⟨rfl, h1⟩ := h1
          exact ⟨_, _, h1, h3, by simp⟩

end Sieve.Expr
