import Verif.NotifyModel
import Verif.ArgsModel

/-!
# C92: which senders `notify :from` accepts
-/

namespace Sieve.Notify

/-- How many quotes there are that are not preceded by a backslash; `prev` stands before the text. -/
def quotes (prev : UInt8) : List UInt8 → Nat
  | [] => 0
  | c :: cs => (if c = 34 ∧ prev ≠ 92 then 1 else 0) + quotes c cs

/-- What comes after `a` is in quotes. -/
def Inside (a : List UInt8) : Prop := quotes 0 a % 2 = 1

/-- The character stands at this place, not in quotes. -/
def At (s : List UInt8) (ch : UInt8) (i : Nat) : Prop := s[i]? = some ch ∧ ¬ Inside (s.take i)

/-- The last bracket is an open one. -/
def Open (s : List UInt8) : Prop := ∃ i, At s 60 i ∧ ∀ j, At s 62 j → j < i

/-- There is an at sign after the last open bracket, if any. -/
def HasAt (s : List UInt8) : Prop := ∃ i, At s 64 i ∧ ∀ j, At s 60 j → j < i

/-- There is a dot after the at sign after the last open bracket, if any. -/
def HasDot (s : List UInt8) : Prop := ∃ i k, At s 64 i ∧ At s 46 k ∧ i < k ∧ ∀ j, At s 60 j → j < i

/-- A letter or a digit stands before this place. -/
def AfterAlnum (s : List UInt8) (i : Nat) : Prop := ∃ c, 0 < i ∧ s[i - 1]? = some c ∧
  ((48 ≤ c ∧ c ≤ 57) ∨ (65 ≤ c ∧ c ≤ 90) ∨ (97 ≤ c ∧ c ≤ 122))

/-- What is accepted: brackets come in pairs that are not nested; an at sign comes after a letter or a digit, and only one
before or in each pair of brackets; the last of them is followed by a dot. -/
structure Sender (s : List UInt8) : Prop where
  lt : ∀ i, At s 60 i → ¬ Open (s.take i)
  gt : ∀ i, At s 62 i → Open (s.take i)
  closed : ¬ Open s
  sign : ∀ i, At s 64 i → ¬ HasAt (s.take i) ∧ AfterAlnum s i
  dot : HasDot s

theorem quotes_snoc (c : UInt8) : ∀ (a : List UInt8) (prev : UInt8),
    quotes prev (a ++ [c]) = quotes prev a + (if c = 34 ∧ a.getLast?.getD prev ≠ 92 then 1 else 0)
  | [], prev => by
    show (if c = 34 ∧ prev ≠ 92 then 1 else 0) + 0 = 0 + _
    rw [Nat.add_zero, Nat.zero_add]
    rfl
  | d :: a, prev => by
    rw [List.cons_append, quotes, quotes_snoc c a d, quotes, List.getLast?_cons]
    simp only [Option.getD_some]
    omega

theorem inside_snoc (a : List UInt8) (c : UInt8) :
    Inside (a ++ [c]) ↔ if c = 34 ∧ a.getLast?.getD 0 ≠ 92 then ¬ Inside a else Inside a := by
  unfold Inside
  rw [quotes_snoc]
  split
  · omega
  · simp

theorem at_lt {s : List UInt8} {ch : UInt8} {i : Nat} (h : At s ch i) : i < s.length :=
  (List.getElem?_eq_some_iff.1 h.1).1

theorem at_snoc (a : List UInt8) (c ch : UInt8) (i : Nat) :
    At (a ++ [c]) ch i ↔ At a ch i ∨ (i = a.length ∧ ch = c ∧ ¬ Inside a) := by
  unfold At
  rcases Nat.lt_trichotomy i a.length with h | h | h
  · rw [List.getElem?_append_left h, List.take_append_of_le_length (by omega)]
    constructor
    · exact .inl
    · rintro (h' | ⟨h', _⟩)
      · exact h'
      · omega
  · subst h
    rw [List.getElem?_append_right (by omega), List.take_left, List.getElem?_eq_none (Nat.le_refl _)]
    simp [eq_comm]
  · rw [List.getElem?_eq_none (by simp; omega), List.getElem?_eq_none (by omega)]
    simp
    omega

theorem open_snoc (a : List UInt8) (c : UInt8) : Open (a ++ [c]) ↔
    (c = 60 ∧ ¬ Inside a) ∨ (¬ (c = 62 ∧ ¬ Inside a) ∧ Open a) := by
  unfold Open
  simp only [at_snoc]
  constructor
  · rintro ⟨i, h1 | ⟨rfl, h1, h2⟩, h3⟩
    · right
      refine ⟨fun h => ?_, i, h1, fun j hj => h3 j (.inl hj)⟩
      have := h3 a.length (.inr ⟨rfl, h.1.symm, h.2⟩)
      have := at_lt h1
      omega
    · exact .inl ⟨h1.symm, h2⟩
  · rintro (⟨rfl, h⟩ | ⟨h, i, h1, h2⟩)
    · refine ⟨a.length, .inr ⟨rfl, rfl, h⟩, ?_⟩
      rintro j (hj | ⟨_, hj, _⟩)
      · exact at_lt hj
      · exact absurd hj (by decide)
    · refine ⟨i, .inl h1, ?_⟩
      rintro j (hj | ⟨_, hj, hi⟩)
      · exact h2 j hj
      · exact absurd ⟨hj.symm, hi⟩ h

theorem hasAt_snoc (a : List UInt8) (c : UInt8) : HasAt (a ++ [c]) ↔
    (c = 64 ∧ ¬ Inside a) ∨ (¬ (c = 60 ∧ ¬ Inside a) ∧ HasAt a) := by
  unfold HasAt
  simp only [at_snoc]
  constructor
  · rintro ⟨i, h1 | ⟨rfl, h1, h2⟩, h3⟩
    · right
      refine ⟨fun h => ?_, i, h1, fun j hj => h3 j (.inl hj)⟩
      have := h3 a.length (.inr ⟨rfl, h.1.symm, h.2⟩)
      have := at_lt h1
      omega
    · exact .inl ⟨h1.symm, h2⟩
  · rintro (⟨rfl, h⟩ | ⟨h, i, h1, h2⟩)
    · refine ⟨a.length, .inr ⟨rfl, rfl, h⟩, ?_⟩
      rintro j (hj | ⟨_, hj, _⟩)
      · exact at_lt hj
      · exact absurd hj (by decide)
    · refine ⟨i, .inl h1, ?_⟩
      rintro j (hj | ⟨_, hj, hi⟩)
      · exact h2 j hj
      · exact absurd ⟨hj.symm, hi⟩ h

theorem hasDot_snoc (a : List UInt8) (c : UInt8) : HasDot (a ++ [c]) ↔
    (c = 46 ∧ ¬ Inside a ∧ HasAt a) ∨ (¬ (c = 60 ∧ ¬ Inside a) ∧ HasDot a) := by
  unfold HasDot HasAt
  simp only [at_snoc]
  constructor
  · rintro ⟨i, k, h1, h2, h3, h4⟩
    have hi : At a 64 i := by
      rcases h1 with h1 | ⟨rfl, _, _⟩
      · exact h1
      · rcases h2 with h2 | ⟨rfl, _, _⟩
        · have := at_lt h2; omega
        · omega
    have hl : ¬ (c = 60 ∧ ¬ Inside a) := by
      intro h
      have := h4 a.length (.inr ⟨rfl, h.1.symm, h.2⟩)
      have := at_lt hi
      omega
    rcases h2 with h2 | ⟨rfl, h5, h6⟩
    · exact .inr ⟨hl, i, k, hi, h2, h3, fun j hj => h4 j (.inl hj)⟩
    · exact .inl ⟨h5.symm, h6, i, hi, fun j hj => h4 j (.inl hj)⟩
  · rintro (⟨rfl, h, i, h1, h2⟩ | ⟨h, i, k, h1, h2, h3, h4⟩)
    · refine ⟨i, a.length, .inl h1, .inr ⟨rfl, rfl, h⟩, at_lt h1, ?_⟩
      rintro j (hj | ⟨_, hj, _⟩)
      · exact h2 j hj
      · exact absurd hj (by decide)
    · refine ⟨i, k, .inl h1, .inl h2, h3, ?_⟩
      rintro j (hj | ⟨_, hj, hi⟩)
      · exact h4 j hj
      · exact absurd ⟨hj.symm, hi⟩ h

/-- The variables say what stands in the text read so far. -/
structure Rep (a : List UInt8) (s : FromState) : Prop where
  hasAt : s.hasAt = true ↔ HasAt a
  hasDot : s.hasDot = true ↔ HasDot a
  quote : s.quote = true ↔ Inside a
  angle : s.angle = true ↔ Open a
  last : s.last = a.getLast?.getD 0

/-- What a character needs. -/
def Ok (a : List UInt8) (ch : UInt8) : Prop :=
  ¬ Inside a → (ch = 60 → ¬ Open a) ∧ (ch = 62 → Open a) ∧ (ch = 64 → ¬ HasAt a ∧ AfterAlnum a a.length)

theorem afterAlnum_iff (a : List UInt8) : AfterAlnum a a.length ↔ alnum (a.getLast?.getD 0) = true := by
  unfold AfterAlnum alnum
  rcases List.eq_nil_or_concat a with rfl | ⟨l, c, rfl⟩
  · simp
  · simp [or_assoc]

theorem hasDot_at {a : List UInt8} (h : HasDot a) : HasAt a :=
  let ⟨i, _, h1, _, _, h4⟩ := h
  ⟨i, h1, h4⟩

theorem rep_step {a : List UInt8} {s : FromState} (h : Rep a s) (ch : UInt8) :
    (∀ t, fromStep s ch = some t → Ok a ch ∧ Rep (a ++ [ch]) t) ∧ (fromStep s ch = none → ¬ Ok a ch) := by
  have hl : (a ++ [ch]).getLast?.getD 0 = ch := by simp
  have hq : s.quote = false ↔ ¬ Inside a := by rw [← h.quote, Bool.not_eq_true]
  have ha : s.angle = false ↔ ¬ Open a := by rw [← h.angle, Bool.not_eq_true]
  have hat : s.hasAt = false ↔ ¬ HasAt a := by rw [← h.hasAt, Bool.not_eq_true]
  have hln : alnum s.last = true ↔ AfterAlnum a a.length := by rw [h.last, afterAlnum_iff]
  unfold fromStep
  by_cases c1 : ch = 34
  · subst c1
    rw [if_pos rfl]
    refine ⟨fun t ht => ?_, fun hn => by simp at hn⟩
    injection ht with ht
    subst ht
    refine ⟨fun _ => ⟨fun h => absurd h (by decide), fun h => absurd h (by decide), fun h => absurd h (by decide)⟩, ?_, ?_, ?_, ?_, hl.symm⟩
    · rw [hasAt_snoc]; simp [h.hasAt]
    · rw [hasDot_snoc]; simp [h.hasDot]
    · rw [inside_snoc, ← h.last]
      by_cases hb : s.last = 92
      · simp [hb, h.quote]
      · simp [hb, ← hq]
    · rw [open_snoc]; simp [h.angle]
  rw [if_neg c1]
  have hi : Inside (a ++ [ch]) ↔ Inside a := by rw [inside_snoc, if_neg (fun e => c1 e.1)]
  by_cases c2 : ch = 60 ∧ s.quote = false
  · rw [if_pos c2]
    have k := hq.1 c2.2
    obtain ⟨rfl, _⟩ := c2
    by_cases c3 : s.angle = false
    · rw [if_pos c3]
      refine ⟨fun t ht => ?_, fun hn => by simp at hn⟩
      injection ht with ht
      subst ht
      refine ⟨fun _ => ⟨fun _ => ha.1 c3, fun h => absurd h (by decide), fun h => absurd h (by decide)⟩, ?_, ?_, ?_, ?_, hl.symm⟩
      · rw [hasAt_snoc]; simp [k]
      · rw [hasDot_snoc]; simp [k]
      · rw [hi]; exact h.quote
      · rw [open_snoc]; simp [k]
    · rw [if_neg c3]
      exact ⟨fun t ht => by simp at ht, fun _ ho => c3 (ha.2 ((ho k).1 rfl))⟩
  rw [if_neg c2]
  have c2' : ¬ (ch = 60 ∧ ¬ Inside a) := by rw [← hq]; exact c2
  by_cases c4 : ch = 62 ∧ s.quote = false
  · rw [if_pos c4]
    have k := hq.1 c4.2
    obtain ⟨rfl, _⟩ := c4
    by_cases c3 : s.angle = true
    · rw [if_pos c3]
      refine ⟨fun t ht => ?_, fun hn => by simp at hn⟩
      injection ht with ht
      subst ht
      refine ⟨fun _ => ⟨fun h => absurd h (by decide), fun _ => h.angle.1 c3, fun h => absurd h (by decide)⟩, ?_, ?_, ?_, ?_, hl.symm⟩
      · rw [hasAt_snoc]; simp [h.hasAt]
      · rw [hasDot_snoc]; simp [h.hasDot]
      · rw [hi]; exact h.quote
      · rw [open_snoc]; simp [k]
    · rw [if_neg c3]
      exact ⟨fun t ht => by simp at ht, fun _ ho => c3 (h.angle.2 ((ho k).2.1 rfl))⟩
  rw [if_neg c4]
  have c4' : ¬ (ch = 62 ∧ ¬ Inside a) := by rw [← hq]; exact c4
  by_cases c5 : ch = 64 ∧ s.quote = false
  · rw [if_pos c5]
    have k := hq.1 c5.2
    obtain ⟨rfl, _⟩ := c5
    by_cases c3 : s.hasAt = false ∧ alnum s.last = true
    · rw [if_pos c3]
      refine ⟨fun t ht => ?_, fun hn => by simp at hn⟩
      injection ht with ht
      subst ht
      refine ⟨fun _ => ⟨fun h => absurd h (by decide), fun h => absurd h (by decide), fun _ => ⟨hat.1 c3.1, hln.1 c3.2⟩⟩, ?_, ?_, ?_, ?_, hl.symm⟩
      · rw [hasAt_snoc]; simp [k]
      · rw [hasDot_snoc]; simp [h.hasDot]
      · rw [hi]; exact h.quote
      · rw [open_snoc]; simp [h.angle]
    · rw [if_neg c3]
      exact ⟨fun t ht => by simp at ht, fun _ ho => c3 ⟨hat.2 ((ho k).2.2 rfl).1, hln.2 ((ho k).2.2 rfl).2⟩⟩
  rw [if_neg c5]
  have c5' : ¬ (ch = 64 ∧ ¬ Inside a) := by rw [← hq]; exact c5
  have ok : Ok a ch := fun k => ⟨fun e => absurd ⟨e, k⟩ c2', fun e => absurd ⟨e, k⟩ c4', fun e => absurd ⟨e, k⟩ c5'⟩
  have r1 : HasAt (a ++ [ch]) ↔ HasAt a := by rw [hasAt_snoc]; simp only [c5', c2', false_or, not_false_eq_true, true_and]
  have r2 : Open (a ++ [ch]) ↔ Open a := by rw [open_snoc]; simp only [c4', c2', false_or, not_false_eq_true, true_and]
  have r3 : HasDot (a ++ [ch]) ↔ (ch = 46 ∧ ¬ Inside a ∧ HasAt a) ∨ HasDot a := by
    rw [hasDot_snoc]; simp only [c2', not_false_eq_true, true_and]
  split
  · rename_i c6
    refine ⟨fun t ht => ?_, fun hn => by simp at hn⟩
    injection ht with ht
    subst ht
    refine ⟨ok, by rw [r1]; exact h.hasAt, ?_, by rw [hi]; exact h.quote, by rw [r2]; exact h.angle, hl.symm⟩
    rw [r3]
    simp only [true_iff]
    exact .inl ⟨c6.1, hq.1 c6.2.1, h.hasAt.1 c6.2.2⟩
  · rename_i c6
    refine ⟨fun t ht => ?_, fun hn => by simp at hn⟩
    injection ht with ht
    subst ht
    refine ⟨ok, by rw [r1]; exact h.hasAt, ?_, by rw [hi]; exact h.quote, by rw [r2]; exact h.angle, hl.symm⟩
    rw [r3]
    have : ¬ (ch = 46 ∧ ¬ Inside a ∧ HasAt a) := fun e => c6 ⟨e.1, hq.2 e.2.1, h.hasAt.2 e.2.2⟩
    simp only [this, false_or]
    exact h.hasDot

theorem rep_loop : ∀ (cs a : List UInt8) (s : FromState), Rep a s →
    (∀ t, fromLoop s cs = some t → (∀ u ch v, cs = u ++ ch :: v → Ok (a ++ u) ch) ∧ Rep (a ++ cs) t)
    ∧ (fromLoop s cs = none → ∃ u ch v, cs = u ++ ch :: v ∧ ¬ Ok (a ++ u) ch)
  | [], a, s, h => by
    refine ⟨fun t ht => ?_, fun hn => by simp [fromLoop] at hn⟩
    simp only [fromLoop, Option.some.injEq] at ht
    subst ht
    exact ⟨fun u ch v e => by simp at e, by simpa using h⟩
  | c :: cs, a, s, h => by
    obtain ⟨h1, h2⟩ := rep_step h c
    rw [fromLoop]
    cases hs : fromStep s c with
    | none =>
      refine ⟨fun t ht => by simp at ht, fun _ => ⟨[], c, cs, rfl, ?_⟩⟩
      rw [List.append_nil]
      exact h2 hs
    | some t =>
      obtain ⟨k1, k2⟩ := h1 t hs
      obtain ⟨l1, l2⟩ := rep_loop cs (a ++ [c]) t k2
      simp only [Option.bind_some]
      constructor
      · intro t' ht'
        obtain ⟨m1, m2⟩ := l1 t' ht'
        refine ⟨fun u ch v e => ?_, by simpa using m2⟩
        cases u with
        | nil =>
          simp only [List.nil_append, List.cons.injEq] at e
          rw [List.append_nil, ← e.1]
          exact k1
        | cons d u =>
          simp only [List.cons_append, List.cons.injEq] at e
          have := m1 u ch v e.2
          rw [e.1] at this
          simpa using this
      · intro hn
        obtain ⟨u, ch, v, e, hk⟩ := l2 hn
        exact ⟨c :: u, ch, v, by rw [e]; rfl, by simpa using hk⟩

/-- The conditions on characters, at each place. -/
theorem ok_places (s : List UInt8) : (∀ u ch v, s = u ++ ch :: v → Ok u ch) ↔
    (∀ i, At s 60 i → ¬ Open (s.take i)) ∧ (∀ i, At s 62 i → Open (s.take i))
      ∧ (∀ i, At s 64 i → ¬ HasAt (s.take i) ∧ AfterAlnum s i) := by
  have split : ∀ i ch, s[i]? = some ch → s = s.take i ++ ch :: s.drop (i + 1) := by
    intro i ch h
    obtain ⟨hi, h⟩ := List.getElem?_eq_some_iff.1 h
    rw [← h, List.getElem_cons_drop, List.take_append_drop]
  have aft : ∀ (u v : List UInt8) (ch : UInt8), AfterAlnum (u ++ ch :: v) u.length ↔ AfterAlnum u u.length := by
    intro u v ch
    unfold AfterAlnum
    by_cases h : 0 < u.length
    · rw [List.getElem?_append_left (by omega)]
    · simp [h]
  constructor
  · intro h
    have key : ∀ i ch, At s ch i → Ok (s.take i) ch ∧ ¬ Inside (s.take i) := fun i ch hi => ⟨h _ _ _ (split i ch hi.1), hi.2⟩
    refine ⟨fun i hi => ?_, fun i hi => ?_, fun i hi => ?_⟩
    · exact ((key i _ hi).1 (key i _ hi).2).1 rfl
    · exact ((key i _ hi).1 (key i _ hi).2).2.1 rfl
    · obtain ⟨k1, k2⟩ := ((key i _ hi).1 (key i _ hi).2).2.2 rfl
      refine ⟨k1, ?_⟩
      have hl : (s.take i).length = i := by rw [List.length_take]; have := at_lt hi; omega
      have h1 := (aft (s.take i) (s.drop (i + 1)) 64).2 k2
      rw [← split i 64 hi.1, hl] at h1
      exact h1
  · rintro ⟨h1, h2, h3⟩ u ch v rfl hu
    have hat : At (u ++ ch :: v) ch u.length := ⟨by simp, by simpa using hu⟩
    refine ⟨?_, ?_, ?_⟩
    · rintro rfl; have := h1 _ hat; simpa using this
    · rintro rfl; have := h2 _ hat; simpa using this
    · rintro rfl
      obtain ⟨k1, k2⟩ := h3 _ hat
      exact ⟨by simpa using k1, (aft u v 64).1 k2⟩

/-- **C92.** A sender is accepted exactly if its brackets are right, every at sign is where it may be, and there is a dot
after the last one. -/
theorem from_iff (s : List UInt8) : validateFrom s = true ↔ Sender s := by
  have h0 : Rep [] ⟨false, false, false, false, 0⟩ :=
    ⟨by simp [HasAt, At], by simp [HasDot, At], by simp [Inside, quotes], by simp [Open, At], rfl⟩
  obtain ⟨h1, h2⟩ := rep_loop s [] _ h0
  simp only [List.nil_append] at h1 h2
  unfold validateFrom
  cases hl : fromLoop ⟨false, false, false, false, 0⟩ s with
  | none =>
    obtain ⟨u, ch, v, e, hk⟩ := h2 hl
    simp only [Bool.false_eq_true, false_iff]
    intro hs
    exact hk ((ok_places s).2 ⟨hs.lt, hs.gt, hs.sign⟩ u ch v e)
  | some t =>
    obtain ⟨k, hr⟩ := h1 t hl
    obtain ⟨p1, p2, p3⟩ := (ok_places s).1 k
    have ha : t.angle = false ↔ ¬ Open s := by rw [← hr.angle, Bool.not_eq_true]
    simp only [Bool.and_eq_true, Bool.not_eq_true', hr.hasDot, hr.hasAt, ha]
    exact ⟨fun h => ⟨p1, p2, h.2, p3, h.1.1⟩, fun h => ⟨⟨h.dot, hasDot_at h.dot⟩, h.closed⟩⟩

/-- **C92.** In particular it has an at sign, and a dot behind it.
The full claim would be an equivalence (`from_loose`, `from_strict`). -/
theorem from_address_partial (s : List UInt8) (h : validateFrom s = true) : ∃ a b c, s = a ++ 64 :: (b ++ 46 :: c) := by
  obtain ⟨i, k, h1, h2, hik, _⟩ := ((from_iff s).1 h).dot
  obtain ⟨hi, e1⟩ := List.getElem?_eq_some_iff.1 h1.1
  obtain ⟨hk, e2⟩ := List.getElem?_eq_some_iff.1 h2.1
  refine ⟨s.take i, (s.take k).drop (i + 1), s.drop (k + 1), ?_⟩
  have e3 : s = s.take k ++ 46 :: s.drop (k + 1) := by
    rw [← e2, List.getElem_cons_drop, List.take_append_drop]
  have e4 : s.take k = s.take i ++ 64 :: (s.take k).drop (i + 1) := by
    have h3 : i < (s.take k).length := by rw [List.length_take]; omega
    have h4 : (s.take k)[i] = 64 := by rw [List.getElem_take, e1]
    rw [← h4, List.getElem_cons_drop]
    conv_lhs => rw [← List.take_append_drop i (s.take k)]
    rw [List.take_take, Nat.min_eq_left (by omega)]
  calc s = s.take k ++ 46 :: s.drop (k + 1) := e3
    _ = (s.take i ++ 64 :: (s.take k).drop (i + 1)) ++ 46 :: s.drop (k + 1) := by rw [← e4]
    _ = _ := by simp

example : validateFrom (Args.bytes "\"A. B@C\" <a@b.c>") = true := by decide +kernel
example : validateFrom (Args.bytes "a@b.c, d@e.f") = false := by decide +kernel
example : validateFrom (Args.bytes "<a@b.c") = false := by decide +kernel

/-- **C92 fails**, if an address is to be well formed: line breaks, a quoted string without end and nothing after the dot
are accepted. -/
theorem from_loose : validateFrom (Args.bytes "a@b.c\r\nBcc: d") = true ∧ validateFrom (Args.bytes "a@b.c \"d") = true
    ∧ validateFrom (Args.bytes "a@.") = true := by decide +kernel

/-- **C92 fails**, if every address is to be accepted: a local part in quotes is not, nor one ending with a sign. -/
theorem from_strict : validateFrom (Args.bytes "\"a b\"@c.d") = false ∧ validateFrom (Args.bytes "a+@c.d") = false := by
  decide +kernel

end Sieve.Notify
