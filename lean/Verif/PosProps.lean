import Verif.PosModel
import Verif.LexProps

/-!
# Tokens and errors are reported where they are (C109)
-/

namespace Sieve.Lex
variable {W F : Type}

/-! ## Specification -/

/-- The column after a text: the number of bytes of its last line; one more on all lines but the first. -/
def column (a : List UInt8) : Nat := (if 10 ∈ a then 1 else 0) + (a.reverse.takeWhile (· ≠ 10)).length

/-- The place after a text: lines are counted from 1. -/
def placeAfter (a : List UInt8) : Place := (1 + a.count 10, column a)

/-- `b`, which follows `a` in the script, begins with the text of the token. -/
inductive Begins (x : Ext W F) : Token W F → List UInt8 → List UInt8 → Prop where
  | ident {t w a r} : t ≠ [] → x.word (t.map lowerByte) = some w → Begins x (.ident w) a (t ++ r)
  | tag {t w a r} : t ≠ [] → x.word (t.map lowerByte) = some w → Begins x (.tag w) a (58 :: (t ++ r))
  | unknown {t a r} : t ≠ [] → Begins x (.unknown (t.map lowerByte)) a (t ++ r)
  /-- an unknown tag: the place is that of the word, after the colon -/
  | unknownTag {t a r} : t ≠ [] → Begins x (.unknown (58 :: t.map lowerByte)) (a ++ [58]) (t ++ r)
  | number {n d a r} : digit d = true → Begins x (.number n) a (d :: r)
  | curlyOpen {a r} : Begins x .curlyOpen a (123 :: r)
  | curlyClose {a r} : Begins x .curlyClose a (125 :: r)
  | bracketOpen {a r} : Begins x .bracketOpen a (91 :: r)
  | bracketClose {a r} : Begins x .bracketClose a (93 :: r)
  | parenOpen {a r} : Begins x .parenOpen a (40 :: r)
  | parenClose {a r} : Begins x .parenClose a (41 :: r)
  | comma {a r} : Begins x .comma a (44 :: r)
  | semicolon {a r} : Begins x .semicolon a (59 :: r)
  | colon {a r} : Begins x .colon a (58 :: r)
  | quoted {tok a r} : tok.text x ≠ none → Begins x tok a (34 :: r)
  /-- a multi-line string: the place is that of the colon -/
  | multi {tok a t r} : tok.text x ≠ none → t.map lowerByte = [116, 101, 120, 116] → Begins x tok (a ++ t) (58 :: r)

/-- The tokens stand in this order in the script, each where its text begins, the first not before `m` and all before
`n`. -/
inductive Located (x : Ext W F) (script : List UInt8) : Nat → List (Info W F) → Nat → Prop where
  | nil {m n} : m ≤ n → Located x script m [] n
  | cons {m n a b t r} : script = a ++ b → m ≤ a.length → Begins x t a b → Located x script (a.length + 1) r n →
      Located x script m (⟨t, placeAfter a⟩ :: r) n

/-- Where an error is, and why there is one. -/
inductive Wrong (script : List UInt8) : Err → Place → Prop where
  /-- a character that has no meaning -/
  | character {a c b} : script = a ++ c :: b → wordChar c = false → delim c = false → c ≠ 58 →
      Wrong script .invalidCharacter (placeAfter a)
  /-- after a slash stands something else than an asterisk -/
  | slash {a c b} : script = a ++ 47 :: c :: b → c ≠ 42 → Wrong script .invalidCharacter (placeAfter (a ++ [47]))
  | lastSlash {a} : script = a ++ [47] → Wrong script .invalidCharacter (placeAfter a)
  /-- the string or comment that begins there -/
  | quoted {e a b} : e ≠ .invalidCharacter → script = a ++ 34 :: b → Wrong script e (placeAfter a)
  | multi {e a t b} : e ≠ .invalidCharacter → t.map lowerByte = [116, 101, 120, 116] → script = a ++ t ++ 58 :: b →
      Wrong script e (placeAfter (a ++ t))
  | comment {a b} : script = a ++ 47 :: 42 :: b → Wrong script .unterminated (placeAfter (a ++ [47]))

/-! ## Places -/

theorem column_snoc (a : List UInt8) (c : UInt8) : column (a ++ [c]) = if c = 10 then 1 else column a + 1 := by
  unfold column
  rw [List.reverse_append, List.reverse_singleton, List.singleton_append]
  by_cases h : c = 10
  · subst h; simp
  · rw [List.takeWhile_cons_of_pos (by simpa using h)]
    simp [h, Ne.symm h]
    omega

theorem count_snoc (a : List UInt8) (c : UInt8) : (a ++ [c]).count 10 = a.count 10 + if c = 10 then 1 else 0 := by
  by_cases h : c = 10
  · subst h; simp
  · simp [h]

/-- The lexer is after the bytes `pre`. -/
structure At (pre : List UInt8) (p : Pos) : Prop where
  pos : p.pos = pre.length
  line : p.line = 1 + pre.count 10
  start : p.start ≤ p.pos
  col : p.pos - p.start = column pre

theorem At.here {pre : List UInt8} {p : Pos} (h : At pre p) : p.here = placeAfter pre := by
  simp [Pos.here, placeAfter, h.line, h.col]

theorem At.next {pre : List UInt8} {p : Pos} (h : At pre p) {c : UInt8} (hc : c ≠ 10) : At (pre ++ [c]) (p.skip 1) := by
  have := h.pos; have := h.start; have := h.col
  refine ⟨by simp [Pos.skip, h.pos], ?_, by simp [Pos.skip]; omega, ?_⟩
  · show p.line = _
    rw [count_snoc, if_neg hc, h.line]; rfl
  · rw [column_snoc, if_neg hc]; simp only [Pos.skip]; omega

theorem At.newline {pre : List UInt8} {p : Pos} (h : At pre p) : At (pre ++ [10]) (p.newLine.skip 1) := by
  refine ⟨by simp [Pos.skip, Pos.newLine, h.pos], ?_, by simp [Pos.skip, Pos.newLine], ?_⟩
  · show p.line + 1 = _
    rw [count_snoc, if_pos rfl, h.line]; omega
  · rw [column_snoc, if_pos rfl]; simp [Pos.skip, Pos.newLine]

/-- `At` does not depend on the places of tokens. -/
theorem At.of {pre : List UInt8} {p q : Pos} (h : At pre p) (h1 : q.pos = p.pos) (h2 : q.line = p.line)
    (h3 : q.start = p.start) : At pre q :=
  ⟨h1 ▸ h.pos, h2 ▸ h.line, by rw [h1, h3]; exact h.start, by rw [h1, h3]; exact h.col⟩

theorem At.push {pre : List UInt8} {p : Pos} (h : At pre p) (b : List UInt8) : At pre (p.push b) := by
  unfold Pos.push
  split
  · exact h.of rfl rfl rfl
  · exact h

theorem At.textStart {pre : List UInt8} {p : Pos} (h : At pre p) : At pre p.textStart := h.of rfl rfl rfl

theorem At.run {pre : List UInt8} {p : Pos} (h : At pre p) {t : List UInt8} (ht : 10 ∉ t) : At (pre ++ t) (p.skip t.length) := by
  induction t generalizing pre p with
  | nil => simpa [Pos.skip] using h
  | cons c t ih =>
    simp only [List.mem_cons, not_or] at ht
    have := ih (h.next (Ne.symm ht.1)) ht.2
    rw [List.append_assoc] at this
    exact this.of (by simp [Pos.skip]; omega) rfl rfl

/-! ## Order -/

theorem Located.le {x : Ext W F} {script : List UInt8} {m n : Nat} {l : List (Info W F)} (h : Located x script m l n) : m ≤ n := by
  induction h with
  | nil h => exact h
  | cons _ h _ _ ih => omega

theorem Located.append {x : Ext W F} {script : List UInt8} {m n k : Nat} {l l' : List (Info W F)}
    (h : Located x script m l n) (h' : Located x script n l' k) : Located x script m (l ++ l') k := by
  induction h with
  | nil h =>
    cases h' with
    | nil h'' => exact .nil (by omega)
    | cons h1 h2 h3 h4 => exact .cons h1 (by omega) h3 h4
  | cons h1 h2 h3 _ ih => exact .cons h1 h2 h3 (ih h')

/-! ## Invariant -/

/-- The lexer is after `pre`; the tokens returned so far begin before `m`; `l` is to come. -/
def Pending (pre l : List UInt8) (s : St) (p : Pos) (m : Nat) : Prop :=
  match s.mode with
  | .none =>
    (s.buf = [] ∧ s.isTag = false ∧ m ≤ pre.length) ∨
    (s.buf = [] ∧ s.isTag = true ∧ (∃ a, pre = a ++ [58] ∧ m ≤ a.length) ∧ ∃ b r, l = b :: r ∧ (isLower b || isUpper b) = true) ∨
    (s.buf ≠ [] ∧ ∃ a t, pre = a ++ t ∧ t.map lowerByte = s.buf ∧ p.token = placeAfter a ∧
      (s.isTag = false ∧ m ≤ a.length ∨ s.isTag = true ∧ ∃ a', a = a' ++ [58] ∧ m ≤ a'.length))
  | .bracket => s.buf = [] ∧ s.isTag = false ∧ m ≤ pre.length ∧ ∃ a b, pre = a ++ 47 :: 42 :: b ∧ p.text = placeAfter (a ++ [47])
  | .hash => s.buf = [] ∧ s.isTag = false ∧ m ≤ pre.length
  | .quoted _ => s.isTag = false ∧ ∃ a b, pre = a ++ 34 :: b ∧ p.text = placeAfter a ∧ m ≤ a.length
  | .multi _ => (s.isTag = false ∨ l = []) ∧ ∃ a t b, pre = a ++ t ++ 58 :: b ∧ t.map lowerByte = [116, 101, 120, 116] ∧
      p.text = placeAfter (a ++ t) ∧ m ≤ (a ++ t).length

theorem pending_none {pre l : List UInt8} {s : St} {p : Pos} {m : Nat} (hm : s.mode = .none) (h1 : s.buf = [])
    (h2 : s.isTag = false) (h3 : m ≤ pre.length) : Pending pre l s p m := by
  unfold Pending
  rw [hm]
  exact .inl ⟨h1, h2, h3⟩

theorem reset_clean {pre l : List UInt8} {s : St} {p : Pos} {m : Nat} (h : Pending pre l s p m) (hm : s.mode = .none)
    (hl : ∀ b r, l = b :: r → (isLower b || isUpper b) = false) : (reset s).buf = [] ∧ (reset s).isTag = false := by
  unfold Pending at h
  rw [hm] at h
  rcases h with ⟨h1, h2, _⟩ | ⟨_, _, _, b, r, hb, hb'⟩ | ⟨h1, _⟩
  · simp [reset, h1, h2]
  · rw [hl b r hb] at hb'; exact absurd hb' (by simp)
  · have : s.buf.isEmpty = false := by simpa using h1
    simp [reset, this]

theorem current_length (x : Ext W F) (s : St) (p : Pos) : (current x s).length = (currentAt x s p).length := by
  unfold current currentAt
  split
  · rfl
  · split <;> rfl

theorem map_ne {t : List UInt8} {b : List UInt8} (h : t.map lowerByte = b) (hb : b ≠ []) : t ≠ [] := by
  rintro rfl
  exact hb h.symm

set_option maxRecDepth 20000 in
theorem digit_lowered (c : UInt8) (h : isDigit (lowerByte c) = true) : isDigit c = true := by
  revert c
  have : ∀ n : Fin 256, isDigit (lowerByte (UInt8.ofNat n)) = true → isDigit (UInt8.ofNat n) = true := by decide
  intro c hc
  have := this ⟨c.toNat, c.toNat_lt⟩
  simpa using this (by simpa using hc)

theorem wordToken_begins (x : Ext W F) {t : List UInt8} (ht : t ≠ []) (a r : List UInt8) (g : Bool)
    (hg : g = true → ∃ a', a = a' ++ [58]) (hw : ¬ ((x.word (t.map lowerByte)).isSome = true ∧ g = true)) :
    Begins x (wordToken x (t.map lowerByte) g) a (t ++ r) := by
  have hu : Begins x (if g = true then Token.unknown (58 :: t.map lowerByte) else .unknown (t.map lowerByte)) a (t ++ r) := by
    split
    · rename_i h
      obtain ⟨a', rfl⟩ := hg h
      exact .unknownTag ht
    · exact .unknown ht
  unfold wordToken
  cases hx : x.word (t.map lowerByte) with
  | some w =>
    have : g = false := by
      cases g
      · rfl
      · simp [hx] at hw
    subst this
    exact .ident ht hx
  | none =>
    obtain ⟨d, u, rfl⟩ := List.exists_cons_of_ne_nil ht
    simp only [List.map_cons, List.head?_cons]
    have : (lowerByte d :: u.map lowerByte).getLast? ≠ none := by simp
    obtain ⟨e, he⟩ := Option.ne_none_iff_exists'.1 this
    rw [he]
    show Begins x (if isDigit (lowerByte d) = true then _ else _) a _
    split
    · rename_i hd
      split
      · exact .number (digit_lowered d hd)
      · exact hu
    · exact hu

theorem wordToken_tag (x : Ext W F) {b : List UInt8} {w : W} (h : x.word b = some w) : wordToken x b true = .tag w := by
  simp [wordToken, h]

/-- A word that ends is returned with its place. -/
theorem current_located (x : Ext W F) {pre l : List UInt8} {s : St} {p : Pos} {m : Nat} (h : Pending pre l s p m)
    (hm : s.mode = .none) (hl : ∀ b r, l = b :: r → (isLower b || isUpper b) = false) :
    Located x (pre ++ l) m (List.zipWith Info.mk (current x s) (currentAt x s p)) pre.length := by
  unfold Pending at h
  rw [hm] at h
  rcases h with ⟨h1, h2, h3⟩ | ⟨_, _, _, b, r, hb, hb'⟩ | ⟨h1, a, t, rfl, ht, hp, hg⟩
  · simp only [current, h1, List.isEmpty_nil, if_true, List.zipWith_nil_left]
    exact .nil h3
  · rw [hl b r hb] at hb'; exact absurd hb' (by simp)
  · have he : s.buf.isEmpty = false := by simpa using h1
    have ht' := map_ne ht h1
    have hpos : 0 < t.length := List.length_pos_iff.2 ht'
    have h1 : current x s = [wordToken x s.buf s.isTag] := by simp [current, he]
    have h2 : currentAt x s p =
        if (x.word s.buf).isSome && s.isTag then [(p.token.1, p.token.2 - 1)] else [p.token] := by simp [currentAt, he]
    rw [h1, h2]
    by_cases hk : (x.word s.buf).isSome = true ∧ s.isTag = true
    · rw [if_pos (by simpa using hk)]
      obtain ⟨w, hw⟩ := Option.isSome_iff_exists.1 hk.1
      rcases hg with ⟨hg, _⟩ | ⟨_, a', rfl, hm'⟩
      · rw [hg] at hk; simp at hk
      have : (p.token.1, p.token.2 - 1) = placeAfter a' := by
        rw [hp]; simp [placeAfter, column_snoc]
      rw [this, hk.2, wordToken_tag x hw]
      refine .cons (a := a') (b := 58 :: (t ++ l)) (by simp) hm' (.tag ht' (by rw [ht]; exact hw)) (.nil ?_)
      simp
    · rw [if_neg (by simpa using hk), hp, ← ht]
      refine .cons (a := a) (b := t ++ l) (by simp) ?_ (wordToken_begins x ht' a l _ ?_ (by rw [ht]; exact hk)) (.nil ?_)
      · rcases hg with ⟨_, h⟩ | ⟨_, a', rfl, h⟩
        · exact h
        · simp; omega
      · intro hg'
        rcases hg with ⟨hg, _⟩ | ⟨_, a', rfl, h⟩
        · rw [hg] at hg'; simp at hg'
        · exact ⟨a', rfl⟩
      · simp; omega

/-! ## One round -/

/-- What is to be shown of a round that goes on. -/
def Kept (x : Ext W F) (pre : List UInt8) (m : Nat) (ch : UInt8) (rest : List UInt8) (mv : Moved) : Out W F → Prop
  | .go s' k ts => ∃ m', ts.length = mv.places.length ∧ At (pre ++ ch :: rest.take k) (mv.pos.skip 1) ∧
      Pending (pre ++ ch :: rest.take k) (rest.drop k) s' mv.pos m' ∧
      Located x (pre ++ ch :: rest) m (List.zipWith Info.mk ts mv.places) m'
  | .fail e => Wrong (pre ++ ch :: rest) e mv.error

theorem pending_skip {pre l : List UInt8} {s : St} {p : Pos} {m n : Nat} (h : Pending pre l s p m) :
    Pending pre l s (p.skip n) m := h

theorem located_snoc (x : Ext W F) {pre rest : List UInt8} {m : Nat} {ch : UInt8} {s : St} {p : Pos} {t : Token W F}
    (hp : At pre p) (h : Located x (pre ++ ch :: rest) m (List.zipWith Info.mk (current x s) (currentAt x s p)) pre.length)
    (ht : Begins x t pre (ch :: rest)) :
    Located x (pre ++ ch :: rest) m (List.zipWith Info.mk (current x s ++ [t]) (currentAt x s p ++ [p.here])) (pre.length + 1) := by
  rw [List.zipWith_append (current_length x s p)]
  refine h.append ?_
  rw [hp.here]
  exact .cons rfl (Nat.le_refl _) ht (.nil (Nat.le_refl _))

/-- A single character after which nothing is pending. -/
theorem kept_symbol (x : Ext W F) {pre rest : List UInt8} {m : Nat} {ch : UInt8} {s : St} {p : Pos} {t : Token W F}
    (hp : At pre p) (h : Pending pre (ch :: rest) s p m) (hm : s.mode = .none) (hc : ch ≠ 10)
    (hl : (isLower ch || isUpper ch) = false) (ht : Begins x t pre (ch :: rest)) :
    Kept x pre m ch rest (symbolAt x s p) (symbol x s t) := by
  have hl' : ∀ b r, ch :: rest = b :: r → (isLower b || isUpper b) = false := by
    intro b r hb; cases hb; exact hl
  obtain ⟨h1, h2⟩ := reset_clean h hm hl'
  refine ⟨pre.length + 1, by simp [symbolAt, current_length x s p], ?_, ?_, located_snoc x hp (current_located x h hm hl') ht⟩
  · simpa [symbolAt] using hp.next hc
  · exact pending_none (by rw [reset_mode]; exact hm) h1 h2 (by simp)

/-- A byte of a word. -/
theorem kept_push (x : Ext W F) {pre rest : List UInt8} {m : Nat} {ch : UInt8} {s : St} {p : Pos}
    (hp : At pre p) (h : Pending pre (ch :: rest) s p m) (hm : s.mode = .none) (hc : ch ≠ 10) (l : UInt8) :
    Kept x pre m ch rest { pos := p.push s.buf, places := [] } (.go (push { s with last := l } (lowerByte ch)) 0 []) := by
  refine ⟨m, rfl, ?_, ?_, .nil (Nat.le_refl _)⟩
  · have := (hp.push s.buf).next hc
    simpa using this
  · unfold Pending at h ⊢
    rw [hm] at h
    have hpm : (push { s with last := l } (lowerByte ch)).mode = .none := hm
    rw [hpm]
    refine .inr (.inr ⟨by simp [push], ?_⟩)
    rcases h with ⟨h1, h2, h3⟩ | ⟨h1, h2, ⟨a, rfl, ha⟩, _⟩ | ⟨h1, a, t, rfl, ht, hpt, hg⟩
    · refine ⟨pre, [ch], by simp, by simp [push, h1], ?_, .inl ⟨h2, h3⟩⟩
      simp [Pos.push, h1, hp.here]
    · refine ⟨a ++ [58], [ch], by simp, by simp [push, h1], ?_, .inr ⟨h2, a, rfl, ha⟩⟩
      simp [Pos.push, h1, hp.here]
    · have he : s.buf.isEmpty = false := by simpa using h1
      refine ⟨a, t ++ [ch], by simp, by simp [push, ht], ?_, hg⟩
      simp [Pos.push, he, hpt]

theorem lower_self (c : UInt8) (h : (isLower c || isDigit c || c = 95 || c = 46 || c = 36) = true) : lowerByte c = c := by
  rw [lowerByte_eq]
  split
  · rename_i hu
    rw [upper_not c hu] at h
    simp at h
  · rfl

theorem lower_upper (c : UInt8) (h : isUpper c = true) : lowerByte c = c + 32 := by simp [lowerByte_eq, h]

/-- A byte after which nothing is pending and which is itself no token. -/
theorem kept_end (x : Ext W F) {pre rest : List UInt8} {m : Nat} {ch : UInt8} {s : St} {p q : Pos} (l : UInt8)
    (h : Pending pre (ch :: rest) s p m) (hm : s.mode = .none) (hl : (isLower ch || isUpper ch) = false)
    (hq : At (pre ++ [ch]) (q.skip 1)) :
    Kept x pre m ch rest { pos := q, places := currentAt x s p } (.go (reset { s with last := l }) 0 (current x s)) := by
  have hl' : ∀ b r, ch :: rest = b :: r → (isLower b || isUpper b) = false := by
    intro b r hb; cases hb; exact hl
  have h' : Pending pre (ch :: rest) { s with last := l } p m := h
  obtain ⟨h1, h2⟩ := reset_clean h' hm hl'
  refine ⟨pre.length, by simp [current_length x s p], by simpa using hq, ?_, current_located x h hm hl'⟩
  exact pending_none (by rw [reset_mode]; exact hm) h1 h2 (by simp)

theorem takeWhile_no (t : List UInt8) : 10 ∉ t.takeWhile (· ≠ 10) := by
  induction t with
  | nil => simp
  | cons c t ih =>
    by_cases h : c = 10
    · rw [List.takeWhile_cons_of_neg (by simpa using h)]; simp
    · rw [List.takeWhile_cons_of_pos (by simpa using h)]
      simp only [List.mem_cons, not_or]
      exact ⟨Ne.symm h, ih⟩

/-- The next byte is a letter. -/
def peekLetter : List UInt8 → Bool
  | b :: _ => isLower b || isUpper b
  | [] => false

theorem kept_none (x : Ext W F) {pre rest : List UInt8} {m : Nat} {ch : UInt8} {s : St} {p : Pos}
    (hp : At pre p) (h : Pending pre (ch :: rest) s p m) (hm : s.mode = .none) :
    Kept x pre m ch rest (moveNone x s p ch rest) (stepNone x { s with last := ch } ch rest) := by
  have hcur : current x { s with last := ch } = current x s := rfl
  unfold moveNone stepNone
  by_cases c1 : (isLower ch || isDigit ch || ch = 95 || ch = 46 || ch = 36) = true
  · rw [if_pos c1, if_pos c1]
    have := kept_push x hp h hm (by rintro rfl; exact absurd c1 (by decide)) ch
    rwa [lower_self ch c1] at this
  rw [if_neg c1, if_neg c1]
  by_cases c2 : isUpper ch = true
  · rw [if_pos c2, if_pos c2]
    have := kept_push x hp h hm (by rintro rfl; exact absurd c2 (by decide)) ch
    rwa [lower_upper ch c2] at this
  rw [if_neg c2, if_neg c2]
  have hl : (isLower ch || isUpper ch) = false := by
    simp only [Bool.not_eq_true, Bool.or_eq_false_iff] at c1 c2 ⊢
    exact ⟨c1.1.1.1.1, c2⟩
  have hw : wordChar ch = false := by
    simp only [wordChar_eq, Bool.not_eq_true, Bool.or_eq_false_iff] at c1 c2 ⊢
    exact ⟨c1, c2⟩
  have hl' : ∀ b r, ch :: rest = b :: r → (isLower b || isUpper b) = false := by
    intro b r hb; cases hb; exact hl
  by_cases c3 : ch = 58
  · subst c3
    rw [if_pos rfl, if_pos rfl]
    show Kept x pre m 58 rest (if (s.buf.isEmpty && peekLetter rest) = true then _ else _)
      (if (s.buf.isEmpty && peekLetter rest) = true then _ else _)
    by_cases c4 : (s.buf.isEmpty && peekLetter rest) = true
    · rw [if_pos c4, if_pos c4]
      simp only [Bool.and_eq_true, List.isEmpty_iff] at c4
      refine ⟨m, rfl, by simpa using hp.next (by decide), ?_, .nil (Nat.le_refl _)⟩
      have hm' : m ≤ pre.length := (current_located x h hm hl').le
      unfold Pending
      show match s.mode with | .none => _ | .bracket => _ | .hash => _ | .quoted _ => _ | .multi _ => _
      rw [hm]
      refine .inr (.inl ⟨c4.1, rfl, ⟨pre, by simp, hm'⟩, ?_⟩)
      cases rest with
      | nil => simp [peekLetter] at c4
      | cons b r => exact ⟨b, r, rfl, c4.2⟩
    · rw [if_neg c4, if_neg c4]
      by_cases c5 : s.buf = [116, 101, 120, 116]
      · have c5' : ({ s with last := 58 } : St).buf = [116, 101, 120, 116] := c5
        rw [if_pos c5, if_pos c5']
        unfold Pending at h
        rw [hm] at h
        rcases h with ⟨h1, _⟩ | ⟨h1, _⟩ | ⟨h1, a, t, rfl, ht, hpt, hg⟩
        · rw [h1] at c5; simp at c5
        · rw [h1] at c5; simp at c5
        have hml : m ≤ (a ++ t).length := by
          rcases hg with ⟨_, hg⟩ | ⟨_, a', rfl, hg⟩
          · simp; omega
          · simp; omega
        have hsplit := List.takeWhile_append_dropWhile (p := fun c : UInt8 => decide (c ≠ 10)) (l := rest)
        have hno := takeWhile_no rest
        cases hd : rest.dropWhile (· ≠ 10) with
        | nil =>
          rw [hd, List.append_nil] at hsplit
          rw [hsplit] at hno
          refine ⟨m, rfl, ?_, ?_, .nil (Nat.le_refl _)⟩
          · have := (hp.textStart.next (c := 58) (by decide)).run hno
            rw [List.append_assoc] at this
            simp only [List.take_length]
            exact this.of (by simp [Pos.skip]; omega) rfl rfl
          · show (_ ∨ _) ∧ _
            refine ⟨.inr (by simp), a, t, rest, by simp, by rw [ht, c5], ?_, hml⟩
            show p.here = _
            rw [hp.here]
        | cons e r =>
          have he : e = 10 := by
            have := List.head?_dropWhile_not (fun c : UInt8 => decide (c ≠ 10)) rest
            rw [hd] at this
            simpa using this
          subst he
          rw [hd] at hsplit
          have htake : rest.take ((rest.takeWhile (· ≠ 10)).length + 1) = rest.takeWhile (· ≠ 10) ++ [10] := by
            have : ∀ u : List UInt8, u ++ 10 :: r = rest → rest.take (u.length + 1) = u ++ [10] := by
              rintro u rfl
              rw [List.take_append, List.take_of_length_le (by omega)]; simp
            exact this _ hsplit
          refine ⟨m, rfl, ?_, ?_, .nil (Nat.le_refl _)⟩
          · have := ((hp.textStart.next (c := 58) (by decide)).run hno).newline
            rw [htake]
            simp only [List.append_assoc, List.singleton_append, List.cons_append, List.nil_append] at this ⊢
            exact this.of (by simp [Pos.skip, Pos.newLine]; omega) (by simp [Pos.skip, Pos.newLine])
              (by simp [Pos.skip, Pos.newLine]; omega)
          · show (_ ∨ _) ∧ _
            refine ⟨.inl rfl, a, t, _, rfl, by rw [ht, c5], ?_, hml⟩
            show p.here = _
            rw [hp.here]
      · have c5' : ¬ ({ s with last := 58 } : St).buf = [116, 101, 120, 116] := c5
        rw [if_neg c5, if_neg c5']
        exact kept_symbol x hp h hm (by decide) hl .colon
  rw [if_neg c3, if_neg c3]
  by_cases c6 : ch = 34
  · subst c6
    rw [if_pos rfl, if_pos rfl]
    have h' : Pending pre (34 :: rest) { s with last := 34 } p m := h
    obtain ⟨r1, r2⟩ := reset_clean h' hm hl'
    refine ⟨pre.length, by simp [hcur, current_length x s p], by simpa using hp.textStart.next (by decide), ?_,
      by rw [hcur]; exact current_located x h hm hl'⟩
    show _ ∧ _
    refine ⟨r2, pre, [], by simp, ?_, Nat.le_refl _⟩
    show p.here = _
    rw [hp.here]
  rw [if_neg c6, if_neg c6]
  by_cases d123 : ch = 123
  · subst d123
    rw [if_pos rfl, if_pos rfl]
    exact kept_symbol x hp h hm (by decide) hl .curlyOpen
  rw [if_neg d123, if_neg d123]
  by_cases d125 : ch = 125
  · subst d125
    rw [if_pos rfl, if_pos rfl]
    exact kept_symbol x hp h hm (by decide) hl .curlyClose
  rw [if_neg d125, if_neg d125]
  by_cases d59 : ch = 59
  · subst d59
    rw [if_pos rfl, if_pos rfl]
    exact kept_symbol x hp h hm (by decide) hl .semicolon
  rw [if_neg d59, if_neg d59]
  by_cases d44 : ch = 44
  · subst d44
    rw [if_pos rfl, if_pos rfl]
    exact kept_symbol x hp h hm (by decide) hl .comma
  rw [if_neg d44, if_neg d44]
  by_cases d91 : ch = 91
  · subst d91
    rw [if_pos rfl, if_pos rfl]
    exact kept_symbol x hp h hm (by decide) hl .bracketOpen
  rw [if_neg d91, if_neg d91]
  by_cases d93 : ch = 93
  · subst d93
    rw [if_pos rfl, if_pos rfl]
    exact kept_symbol x hp h hm (by decide) hl .bracketClose
  rw [if_neg d93, if_neg d93]
  by_cases d40 : ch = 40
  · subst d40
    rw [if_pos rfl, if_pos rfl]
    exact kept_symbol x hp h hm (by decide) hl .parenOpen
  rw [if_neg d40, if_neg d40]
  by_cases d41 : ch = 41
  · subst d41
    rw [if_pos rfl, if_pos rfl]
    exact kept_symbol x hp h hm (by decide) hl .parenClose
  rw [if_neg d41, if_neg d41]
  by_cases c7 : ch = 47
  · subst c7
    rw [if_pos rfl, if_pos rfl]
    have h' : Pending pre (47 :: rest) { s with last := 47 } p m := h
    obtain ⟨r1, r2⟩ := reset_clean h' hm hl'
    cases rest with
    | nil =>
      show Wrong _ _ p.here
      rw [hp.here]
      exact .lastSlash rfl
    | cons c r =>
      by_cases hc : c = 42
      · subst hc
        refine ⟨pre.length, by simp [hcur, current_length x s p], ?_, ?_, by rw [hcur]; exact current_located x h hm hl'⟩
        · have := (hp.next (c := 47) (by decide)).textStart.next (c := 42) (by decide)
          simpa using this
        · show _ ∧ _ ∧ _ ∧ _
          refine ⟨r1, r2, by simp, pre, [], by simp, ?_⟩
          show (p.skip 1).here = _
          exact (hp.next (c := 47) (by decide)).here
      · have e1 : ∀ (g : List UInt8 → Out W F) (k : Out W F),
            (match c :: r with | 42 :: t => g t | _ => k) = k := by
          intro g k
          split
          · rename_i h; simp only [List.cons.injEq] at h; exact absurd h.1 hc
          · rfl
        have e2 : ∀ (g : List UInt8 → Moved) (k : Moved) (k' : Moved),
            (match c :: r with | 42 :: t => g t | _ :: _ => k | [] => k') = k := by
          intro g k k'
          split
          · rename_i h; simp only [List.cons.injEq] at h; exact absurd h.1 hc
          · rfl
          · rename_i h; simp at h
        have e3 := e2 (fun _ => { pos := (p.skip 1).textStart, places := currentAt x s p })
          { pos := p, places := [], error := (p.skip 1).here } { pos := p, places := [], error := p.here }
        have e4 := e1 (fun _ => .go { reset { s with last := 47 } with last := 0, mode := .bracket } 1 (current x s)) (.fail .invalidCharacter)
        refine (congrArg₂ (Kept x pre m 47 (c :: r)) e3 e4).mpr ?_
        show Wrong _ _ ((p.skip 1).here)
        rw [(hp.next (c := 47) (by decide)).here]
        exact .slash rfl hc
  rw [if_neg c7, if_neg c7]
  by_cases c8 : ch = 35
  · subst c8
    rw [if_pos rfl, if_pos rfl]
    have h' : Pending pre (35 :: rest) { s with last := 35 } p m := h
    obtain ⟨r1, r2⟩ := reset_clean h' hm hl'
    refine ⟨pre.length, by simp [hcur, current_length x s p], by simpa using hp.next (by decide), ?_,
      by rw [hcur]; exact current_located x h hm hl'⟩
    show _ ∧ _ ∧ _
    exact ⟨r1, r2, by simp⟩
  rw [if_neg c8, if_neg c8]
  by_cases c9 : ch = 10
  · subst c9
    rw [if_pos rfl, if_pos (by decide)]
    exact kept_end x 10 h hm hl hp.newline
  rw [if_neg c9]
  by_cases c10 : (ch = 32 || ch = 9 || ch = 13) = true
  · rw [if_pos c10, if_pos (by simp only [Bool.or_eq_true] at c10 ⊢; tauto)]
    exact kept_end x ch h hm hl (hp.next c9)
  rw [if_neg c10, if_neg (by simp only [Bool.or_eq_true, decide_eq_true_eq] at c10 ⊢; tauto)]
  show Wrong _ _ p.here
  rw [hp.here]
  refine .character rfl hw ?_ c3
  simp only [Bool.or_eq_true, decide_eq_true_eq, not_or] at c10
  simp only [delim, List.mem_cons, List.not_mem_nil, or_false, decide_eq_false_iff_not, not_or]
  tauto

/-- A byte of a string. -/
theorem kept_quoted_go (x : Ext W F) {pre rest : List UInt8} {m : Nat} {ch : UInt8} {s s' : St} {p q : Pos} {t t' : StrType}
    (h : Pending pre (ch :: rest) s p m) (hm : s.mode = .quoted t) (hm' : s'.mode = .quoted t') (hg : s'.isTag = s.isTag)
    (hq : At (pre ++ [ch]) (q.skip 1)) (ht : q.text = p.text) : Kept x pre m ch rest { pos := q, places := [] } (.go s' 0 []) := by
  refine ⟨m, rfl, by simpa using hq, ?_, .nil (Nat.le_refl _)⟩
  unfold Pending at h ⊢
  rw [hm] at h
  rw [hm']
  obtain ⟨h1, a, b, rfl, h2, h3⟩ := h
  exact ⟨by rw [hg, h1], a, b ++ [ch], by simp, by rw [ht, h2], h3⟩

theorem push_text (p : Pos) (b : List UInt8) : (p.push b).text = p.text := by
  unfold Pos.push; split <;> rfl

theorem stringToken_text_ne (x : Ext W F) (b : List UInt8) (t : StrType) : (stringToken x b t).text x ≠ none := by
  rw [stringToken_text]; simp

theorem kept_quoted (x : Ext W F) {pre rest : List UInt8} {m : Nat} {ch : UInt8} {s : St} {p : Pos} {t : StrType}
    (hp : At pre p) (h : Pending pre (ch :: rest) s p m) (hm : s.mode = .quoted t) :
    Kept x pre m ch rest (moveQuoted s p ch) (stepQuoted x { s with last := ch } s.last t ch) := by
  unfold moveQuoted stepQuoted
  by_cases c1 : (ch = 34 && s.last ≠ 92) = true
  · rw [if_pos c1, if_pos c1]
    have hch : ch = 34 := by simp at c1; exact c1.1
    subst hch
    unfold Pending at h
    rw [hm] at h
    obtain ⟨h1, a, b, rfl, h2, h3⟩ := h
    unfold getString
    by_cases hlen : s.buf.length < x.maxString
    · rw [if_pos hlen]
      refine ⟨a.length + 1, rfl, by simpa using hp.next (by decide), pending_none rfl rfl h1 (by simp), ?_⟩
      rw [h2]
      refine .cons (a := a) (b := 34 :: (b ++ 34 :: rest)) (by simp) h3 (.quoted (stringToken_text_ne x _ _)) (.nil (Nat.le_refl _))
    · rw [if_neg hlen]
      show Wrong _ _ p.text
      rw [h2]
      exact .quoted (b := b ++ 34 :: rest) (by decide) (by simp)
  rw [if_neg c1, if_neg c1]
  by_cases c2 : ch = 10
  · subst c2
    rw [if_pos rfl, if_pos rfl]
    exact kept_quoted_go x h hm rfl rfl ((hp.newline).of (by simp [Pos.push, Pos.skip, Pos.newLine]; split <;> rfl)
      (by simp [Pos.push, Pos.skip, Pos.newLine]; split <;> rfl) (by simp [Pos.push, Pos.skip, Pos.newLine]; split <;> rfl))
      (push_text _ _)
  rw [if_neg c2, if_neg c2]
  have hq : At (pre ++ [ch]) ((p.push s.buf).skip 1) := (hp.push s.buf).next c2
  have hq' : At (pre ++ [ch]) (p.skip 1) := hp.next c2
  by_cases c3 : ch = 92
  · subst c3
    by_cases c4 : s.last = 92
    · rw [if_neg (by simp [c4]), if_neg (by simp), if_pos rfl, if_pos c4]
      exact kept_quoted_go x h hm hm rfl hq (push_text _ _)
    · rw [if_pos (by simp [c4]), if_neg (by simp), if_pos rfl, if_neg c4]
      exact kept_quoted_go x h hm hm rfl hq' rfl
  · rw [if_neg (by simp [c3])]
    split
    · exact kept_quoted_go x h hm rfl rfl hq (push_text _ _)
    split
    · exact kept_quoted_go x h hm rfl rfl hq (push_text _ _)
    split
    · exact kept_quoted_go x h hm rfl rfl hq (push_text _ _)
    · exact kept_quoted_go x h hm rfl rfl hq (push_text _ _)

/-- Bytes of a multi-line string. -/
theorem kept_multi_go (x : Ext W F) {pre rest : List UInt8} {m k : Nat} {ch : UInt8} {s s' : St} {p q : Pos} {t t' : StrType}
    (h : Pending pre (ch :: rest) s p m) (hm : s.mode = .multi t) (hm' : s'.mode = .multi t') (hg : s'.isTag = s.isTag)
    (hq : At (pre ++ ch :: rest.take k) (q.skip 1)) (ht : q.text = p.text) :
    Kept x pre m ch rest { pos := q, places := [] } (.go s' k []) := by
  refine ⟨m, rfl, hq, ?_, .nil (Nat.le_refl _)⟩
  unfold Pending at h ⊢
  rw [hm] at h
  rw [hm']
  obtain ⟨h1, a, u, b, rfl, h2, h3, h4⟩ := h
  refine ⟨.inl ?_, a, u, b ++ ch :: rest.take k, by simp, h2, by rw [ht, h3], h4⟩
  rw [hg]
  exact h1.resolve_right (by simp)

/-- The end of a multi-line string. -/
theorem kept_multi_end (x : Ext W F) {pre rest : List UInt8} {m k : Nat} {ch : UInt8} {s s' : St} {p q : Pos} {t t' : StrType}
    (h : Pending pre (ch :: rest) s p m) (hm : s.mode = .multi t) (hb : s'.buf = s.buf) (hg : s'.isTag = s.isTag)
    (hq : At (pre ++ ch :: rest.take k) (q.skip 1)) :
    Kept x pre m ch rest { pos := q, places := [p.text], error := p.text } (getString x s' t' k) := by
  unfold Pending at h
  rw [hm] at h
  obtain ⟨h1, a, u, b, rfl, h2, h3, h4⟩ := h
  unfold getString
  split
  · refine ⟨(a ++ u).length + 1, rfl, hq, pending_none rfl rfl ?_ (by simp; omega), ?_⟩
    · show s'.isTag = false
      rw [hg]; exact h1.resolve_right (by simp)
    · rw [h3]
      exact .cons (a := a ++ u) (b := 58 :: (b ++ ch :: rest)) (by simp) h4 (.multi (stringToken_text_ne x _ _) h2) (.nil (Nat.le_refl _))
  · show Wrong _ _ p.text
    rw [h3]
    exact .multi (b := b ++ ch :: rest) (by decide) h2 (by simp)

theorem moveDot_other (s : St) (p : Pos) {c : UInt8} {r : List UInt8} (h : c ≠ 10) (h' : ∀ r', ¬ (c = 13 ∧ r = 10 :: r')) :
    moveDot s p (c :: r) = { pos := (p.skip 1).push s.buf, places := [] } := by
  unfold moveDot
  split
  · rename_i r' heq
    simp only [List.cons.injEq] at heq
    exact absurd heq (h' r')
  · rename_i heq
    simp only [List.cons.injEq] at heq
    exact absurd heq.1 h
  · rfl
  · rename_i heq; simp at heq

theorem stepDot_other (x : Ext W F) (s : St) (t : StrType) {c : UInt8} {r : List UInt8} (h : c ≠ 10)
    (h' : ∀ r', ¬ (c = 13 ∧ r = 10 :: r')) : ∃ b l, stepDot x s t (c :: r) = .go { s with buf := b, last := l } 1 [] := by
  unfold stepDot
  split
  · rename_i r' heq
    simp only [List.cons.injEq] at heq
    exact absurd heq (h' r')
  · rename_i heq
    simp only [List.cons.injEq] at heq
    exact absurd heq.1 h
  · exact ⟨_, _, rfl⟩
  · exact ⟨_, _, rfl⟩
  · rename_i heq; simp at heq

theorem kept_multi (x : Ext W F) {pre rest : List UInt8} {m : Nat} {ch : UInt8} {s : St} {p : Pos} {t : StrType}
    (hp : At pre p) (h : Pending pre (ch :: rest) s p m) (hm : s.mode = .multi t) :
    Kept x pre m ch rest (moveMulti s p ch rest) (stepMulti x { s with last := ch } s.last t ch rest) := by
  unfold moveMulti stepMulti
  by_cases c1 : (ch = 46 && s.last = 10) = true
  · rw [if_pos c1, if_pos c1]
    have hch : ch = 46 := by simp at c1; exact c1.1
    subst hch
    have h46 := hp.next (c := 46) (by decide)
    by_cases d1 : ∃ r, rest = 13 :: 10 :: r
    · obtain ⟨r, rfl⟩ := d1
      exact kept_multi_end x h hm rfl rfl (by
        have := (h46.next (c := 13) (by decide)).newline
        simpa using this.of (by simp [Pos.skip, Pos.newLine]) (by simp [Pos.skip, Pos.newLine]) (by simp [Pos.skip, Pos.newLine]))
    cases rest with
    | nil => exact kept_multi_go x h hm hm rfl (by simpa using h46) rfl
    | cons c r =>
      by_cases hc10 : c = 10
      · subst hc10
        exact kept_multi_end x h hm rfl rfl (by
          have := h46.newline
          simpa using this.of (by simp [Pos.skip, Pos.newLine]) (by simp [Pos.skip, Pos.newLine]) (by simp [Pos.skip, Pos.newLine]))
      have d2 : ∀ r', ¬ (c = 13 ∧ r = 10 :: r') := by
        rintro r' ⟨rfl, rfl⟩
        exact d1 ⟨_, rfl⟩
      rw [moveDot_other s p hc10 d2]
      obtain ⟨b, l, e⟩ := stepDot_other x { s with last := 46 } t hc10 d2
      rw [e]
      refine kept_multi_go x h hm hm rfl ?_ (push_text _ _)
      have := (h46.push s.buf).next (c := c) hc10
      simpa using this
  rw [if_neg c1, if_neg c1]
  by_cases c2 : ch = 10
  · subst c2
    rw [if_pos rfl, if_pos rfl]
    refine kept_multi_go x h hm hm rfl ?_ (push_text _ _)
    have := hp.newline
    simpa using this.of (q := (p.newLine.push s.buf).skip 1) (by simp [Pos.push, Pos.skip, Pos.newLine]; split <;> rfl)
      (by simp [Pos.push, Pos.skip, Pos.newLine]; split <;> rfl) (by simp [Pos.push, Pos.skip, Pos.newLine]; split <;> rfl)
  rw [if_neg c2, if_neg c2]
  have hq : At (pre ++ ch :: rest.take 0) ((p.push s.buf).skip 1) := by simpa using (hp.push s.buf).next c2
  split
  · exact kept_multi_go x h hm rfl rfl hq (push_text _ _)
  split
  · exact kept_multi_go x h hm rfl rfl hq (push_text _ _)
  split
  · exact kept_multi_go x h hm rfl rfl hq (push_text _ _)
  · exact kept_multi_go x h hm rfl rfl hq (push_text _ _)

theorem kept (x : Ext W F) {pre rest : List UInt8} {m : Nat} {ch : UInt8} {s : St} {p : Pos}
    (hp : At pre p) (h : Pending pre (ch :: rest) s p m) : Kept x pre m ch rest (move x s p ch rest) (step x s ch rest) := by
  unfold move step
  cases hm : s.mode with
  | none =>
    have e := kept_none x hp h hm
    rw [hm] at e
    exact e
  | quoted t =>
    have e := kept_quoted x hp h hm
    rw [hm] at e
    exact e
  | multi t =>
    have e := kept_multi x hp h hm
    rw [hm] at e
    exact e
  | hash =>
    unfold Pending at h
    rw [hm] at h
    obtain ⟨h1, h2, h3⟩ := h
    dsimp only
    by_cases hc : ch = 10
    · rw [if_pos hc, if_pos hc]
      subst hc
      exact ⟨m, rfl, by simpa using hp.newline, pending_none rfl h1 h2 (by simp; omega), .nil (Nat.le_refl _)⟩
    · rw [if_neg hc, if_neg hc]
      refine ⟨m, rfl, by simpa using hp.next hc, ?_, .nil (Nat.le_refl _)⟩
      exact ⟨h1, h2, by simp; omega⟩
  | bracket =>
    unfold Pending at h
    rw [hm] at h
    obtain ⟨h1, h2, h3, a, b, rfl, h4⟩ := h
    dsimp only
    by_cases hc : (ch = 47 && s.last = 42) = true
    · rw [if_pos hc, if_pos hc]
      have hch : ch = 47 := by simp at hc; exact hc.1
      subst hch
      exact ⟨m, rfl, by simpa using hp.next (c := 47) (by decide), pending_none rfl h1 h2 (by simp at h3 ⊢; omega),
        .nil (Nat.le_refl _)⟩
    · rw [if_neg hc, if_neg hc]
      by_cases h10 : ch = 10
      · rw [if_pos h10]
        subst h10
        exact ⟨m, rfl, by simpa using hp.newline, ⟨h1, h2, by simp at h3 ⊢; omega, a, b ++ [10], by simp, h4⟩,
          .nil (Nat.le_refl _)⟩
      · rw [if_neg h10]
        exact ⟨m, rfl, by simpa using hp.next h10, ⟨h1, h2, by simp at h3 ⊢; omega, a, b ++ [ch], by simp, h4⟩,
          .nil (Nat.le_refl _)⟩

theorem Pending.le {pre l : List UInt8} {s : St} {p : Pos} {m : Nat} (h : Pending pre l s p m) : m ≤ pre.length := by
  unfold Pending at h
  split at h
  · rcases h with h | ⟨_, _, ⟨a, rfl, h⟩, _⟩ | ⟨_, a, t, rfl, _, _, ⟨_, h⟩ | ⟨_, a', rfl, h⟩⟩
    · exact h.2.2
    · simp; omega
    · simp; omega
    · simp; omega
  · exact h.2.2.1
  · exact h.2.2
  · obtain ⟨_, a, b, rfl, _, h⟩ := h; simp; omega
  · obtain ⟨_, a, t, b, rfl, _, _, h⟩ := h; simp at h ⊢; omega

/-- From any place in a script on. -/
theorem lexAt_all (x : Ext W F) (s : St) (p : Pos) {pre : List UInt8} {m : Nat} (l : List UInt8) (hp : At pre p)
    (h : Pending pre l s p m) :
    (lexAt x s p l).1.map Info.token = (lex x s l).1 ∧ (lexAt x s p l).2.1.map Prod.fst = (lex x s l).2 ∧
    Located x (pre ++ l) m (lexAt x s p l).1 (pre ++ l).length ∧
    (∀ e q, (lexAt x s p l).2.1 = some (e, q) → Wrong (pre ++ l) e q) ∧
    ((lexAt x s p l).2.1 = none → ∃ q, (lexAt x s p l).2.2 = q ∧ q.1 = (placeAfter (pre ++ l)).1 ∧
      (pre ++ l ≠ [] → q.2 = (placeAfter (pre ++ l)).2 - 1)) := by
  induction hn : l.length using Nat.strongRecOn generalizing s p pre m l with
  | ind n ih =>
    subst hn
    cases l with
    | nil =>
      have hle := h.le
      rw [lexAt, lex]
      unfold Pending at h
      cases hm : s.mode with
      | none =>
        refine ⟨rfl, rfl, .nil (by simpa using hle), by simp, fun _ => ⟨_, rfl, by simp [placeAfter, hp.line], ?_⟩⟩
        intro hne
        have h0 : p.pos ≠ 0 := by rw [hp.pos]; simpa using hne
        have := hp.col
        simp only [List.append_nil, placeAfter, if_neg h0]
        omega
      | hash =>
        refine ⟨rfl, rfl, .nil (by simpa using hle), by simp, fun _ => ⟨_, rfl, by simp [placeAfter, hp.line], ?_⟩⟩
        intro hne
        have h0 : p.pos ≠ 0 := by rw [hp.pos]; simpa using hne
        have := hp.col
        simp only [List.append_nil, placeAfter, if_neg h0]
        omega
      | bracket =>
        rw [hm] at h
        obtain ⟨_, _, _, a, b, rfl, h4⟩ := h
        refine ⟨rfl, rfl, .nil (by simpa using hle), ?_, by simp⟩
        rintro e q heq
        simp only [Option.some.injEq, Prod.mk.injEq] at heq
        obtain ⟨rfl, rfl⟩ := heq
        rw [h4]
        exact .comment (by simp; rfl)
      | quoted t =>
        rw [hm] at h
        obtain ⟨_, a, b, rfl, h4, _⟩ := h
        refine ⟨rfl, rfl, .nil (by simpa using hle), ?_, by simp⟩
        rintro e q heq
        simp only [Option.some.injEq, Prod.mk.injEq] at heq
        obtain ⟨rfl, rfl⟩ := heq
        rw [h4]
        exact .quoted (by decide) (by simp; rfl)
      | multi t =>
        rw [hm] at h
        obtain ⟨_, a, t, b, rfl, h3, h4, _⟩ := h
        refine ⟨rfl, rfl, .nil (by simpa using hle), ?_, by simp⟩
        rintro e q heq
        simp only [Option.some.injEq, Prod.mk.injEq] at heq
        obtain ⟨rfl, rfl⟩ := heq
        rw [h4]
        exact .multi (by decide) h3 (by simp; rfl)
    | cons ch rest =>
      have hk := kept x hp h
      have hle := h.le
      rw [lexAt, lex]
      cases hs : step x s ch rest with
      | fail e =>
        rw [hs] at hk
        refine ⟨rfl, rfl, .nil (by simp; omega), ?_, by simp⟩
        rintro e' q heq
        simp only [Option.some.injEq, Prod.mk.injEq] at heq
        obtain ⟨rfl, rfl⟩ := heq
        exact hk
      | go s' k ts =>
        rw [hs] at hk
        obtain ⟨m', h1, h2, h3, h4⟩ := hk
        obtain ⟨i1, i2, i3, i4, i5⟩ := ih (rest.drop k).length (by simp; omega) s' ((move x s p ch rest).pos.skip 1) _ h2
          (pending_skip h3) rfl
        have e : pre ++ ch :: rest.take k ++ rest.drop k = pre ++ ch :: rest := by simp
        rw [e] at i3 i4 i5
        refine ⟨?_, i2, ?_, i4, i5⟩
        · simp only [List.map_append, i1]
          congr 1
          rw [List.map_zipWith]
          clear hs h4
          generalize (move x s p ch rest).places = ps at h1
          induction ts generalizing ps with
          | nil => simp
          | cons t ts iht =>
            cases ps with
            | nil => simp at h1
            | cons q ps => simp at h1 ⊢; exact iht ps h1
        · exact h4.append i3

/-! ## Evaluating on examples -/

/-- `lexAt` with a bound on the number of rounds, for computing. -/
def lexAtN (x : Ext W F) : Nat → St → Pos → List UInt8 → List (Info W F) × Option (Err × Place) × Place
  | _, s, p, [] =>
    match s.mode with
    | .bracket | .quoted _ | .multi _ => ([], some (.unterminated, p.text), p.here)
    | _ => ([], none, (p.line, (if p.pos = 0 then 2 ^ 64 - 1 else p.pos - 1) - p.start))
  | 0, _, _, _ :: _ => ([], none, (0, 0))
  | n + 1, s, p, ch :: rest =>
    match step x s ch rest with
    | .fail e => ([], some (e, (move x s p ch rest).error), p.here)
    | .go s' skip toks =>
      let m := move x s p ch rest
      let r := lexAtN x n s' (m.pos.skip 1) (rest.drop skip)
      (toks.zipWith Info.mk m.places ++ r.1, r.2)

theorem lexAt_eq_lexAtN (x : Ext W F) : ∀ (n : Nat) (s : St) (p : Pos) (l : List UInt8), l.length ≤ n →
    lexAt x s p l = lexAtN x n s p l
  | n, s, p, [], _ => by rw [lexAt]; cases hm : s.mode <;> cases n <;> simp [lexAtN, hm]
  | 0, s, p, c :: l, h => by simp at h
  | n + 1, s, p, c :: l, h => by
    rw [lexAt]
    simp only [lexAtN]
    cases hs : step x s c l with
    | fail e => rfl
    | go s' k ts =>
      simp only []
      rw [lexAt_eq_lexAtN x n s' _ (l.drop k) (by simp at h ⊢; omega)]

/-! ## C109 -/

/-- C109: the tokens of a script are reported in their order, each at the line and column where it begins.

Missing: columns are counted from 0 on the first line and from 1 on the others, unknown tags are reported after their
colon, and multi-line strings at the colon of `text:`; see below. -/
theorem tokens_located_partial (x : Ext W F) (script : List UInt8) :
    (lexAt x {} {} script).1.map Info.token = (lex x {} script).1 ∧
    Located x script 0 (lexAt x {} {} script).1 script.length := by
  obtain ⟨h1, _, h3, _⟩ := lexAt_all x {} {} (pre := []) (m := 0) script ⟨rfl, rfl, Nat.le_refl _, rfl⟩
    (pending_none rfl rfl rfl (Nat.le_refl _))
  exact ⟨h1, h3⟩

/-- C109: an error of the lexer is reported at the character that is wrong, or at the beginning of the string or
comment that does not end or is too long. -/
theorem error_located (x : Ext W F) (script : List UInt8) :
    (lexAt x {} {} script).2.1.map Prod.fst = (lex x {} script).2 ∧
    ∀ e q, (lexAt x {} {} script).2.1 = some (e, q) → Wrong script e q := by
  obtain ⟨_, h2, _, h4, _⟩ := lexAt_all x {} {} (pre := []) (m := 0) script ⟨rfl, rfl, Nat.le_refl _, rfl⟩
    (pending_none rfl rfl rfl (Nat.le_refl _))
  exact ⟨h2, h4⟩

/-- C109: an unexpected end of the script is reported at its last byte. -/
theorem end_located_partial (x : Ext W F) (a : List UInt8) (c : UInt8) (h : (lex x {} (a ++ [c])).2 = none) :
    (lexAt x {} {} (a ++ [c])).2.2 = (1 + (a ++ [c]).count 10, if c = 10 then 0 else column a) := by
  obtain ⟨_, h2, _, _, h5⟩ := lexAt_all x {} {} (pre := []) (m := 0) (a ++ [c]) ⟨rfl, rfl, Nat.le_refl _, rfl⟩
    (pending_none rfl rfl rfl (Nat.le_refl _))
  rw [h, Option.map_eq_none_iff] at h2
  obtain ⟨q, rfl, e1, e2⟩ := h5 h2
  have e2 := e2 (by simp)
  refine Prod.ext e1 ?_
  rw [e2, List.nil_append, placeAfter]
  simp only [column_snoc]
  split <;> rfl

/-- `keep;⏎ keep;`: the second line counts its columns from 1. -/
theorem first_line_column :
    (lexAt exExt {} {} [107, 101, 101, 112, 59, 10, 107, 101, 101, 112, 59]).1.map Info.place = [(1, 0), (1, 4), (2, 1), (2, 5)] := by
  rw [lexAt_eq_lexAtN _ 11 _ _ _ (by decide)]; decide

/-- `:is` is reported at its colon, `:if` after it. -/
theorem unknown_tag_column :
    (lexAt exExt {} {} [58, 105, 115, 32]).1.map (fun i => (i.token, i.place)) = [(.tag 2, (1, 0))] ∧
    (lexAt exExt {} {} [58, 105, 102, 32]).1.map (fun i => (i.token, i.place)) = [(.unknown [58, 105, 102], (1, 1))] := by
  rw [lexAt_eq_lexAtN _ 4 _ _ _ (by decide), lexAt_eq_lexAtN _ 4 _ _ _ (by decide)]; decide

/-- `text:⏎.⏎` is reported at its colon. -/
theorem multi_line_column :
    (lexAt exExt {} {} [116, 101, 120, 116, 58, 10, 46, 10]).1.map (fun i => (i.token, i.place)) = [(.string [], (1, 4))] := by
  rw [lexAt_eq_lexAtN _ 8 _ _ _ (by decide)]; decide

/-- The unexpected end of an empty script is reported far behind it. -/
theorem empty_script_column (x : Ext W F) : (lexAt x {} {} []).2.2 = (1, 18446744073709551615) := by
  rw [lexAt]; rfl

/-- An unterminated comment is reported at its asterisk. -/
example : (lexAt exExt {} {} [59, 47, 42, 32]).2.1 = some (.unterminated, (1, 2)) := by
  rw [lexAt_eq_lexAtN _ 4 _ _ _ (by decide)]; decide

/-- A script with a tag, a string over two lines and an invalid character. -/
example : (lexAt exExt {} {} [107, 101, 101, 112, 32, 58, 73, 83, 32, 34, 97, 10, 98, 34, 59, 33]).1.map (fun i => (i.token, i.place))
    = [(.ident 1, (1, 0)), (.tag 2, (1, 5)), (.string [97, 10, 98], (1, 9)), (.semicolon, (2, 3))] ∧
    (lexAt exExt {} {} [107, 101, 101, 112, 32, 58, 73, 83, 32, 34, 97, 10, 98, 34, 59, 33]).2.1
    = some (.invalidCharacter, (2, 4)) := by
  rw [lexAt_eq_lexAtN _ 16 _ _ _ (by decide)]; decide

example : (lex exExt {} ([107, 101, 101, 112, 59, 10] ++ [32])).2 = none := by
  rw [lex_eq_lexN _ 8 _ _ (by decide)]; decide

end Sieve.Lex
