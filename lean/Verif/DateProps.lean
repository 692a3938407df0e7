import Verif.OtherTestsProps

/-!
# Properties of the date tests

C74: `date` and `currentdate`.
C75: the texts of the parts of a date.
-/

namespace Sieve.Tests
open Sieve.Expr (Val Flt Ieee)

variable {F N V : Type}

/-! ## Specification -/

/-- The number denoted by digits. -/
def valueOf (s : Str) : Nat := s.foldl (fun n c => 10 * n + (c.toNat - 48)) 0

/-- `s` is `n` in decimal notation with at least `w` digits and no more leading zeros than needed for that. -/
def Padded (w n : Nat) (s : Str) : Prop :=
  (∀ c ∈ s, 48 ≤ c.toNat ∧ c.toNat ≤ 57) ∧ valueOf s = n ∧ w ≤ s.length ∧ (s.length = w ∨ 10 ^ (s.length - 1) ≤ n)

/-- An integer in decimal notation. -/
inductive Signed : Int → Str → Prop
  | pos {n : Nat} {s} : Padded 1 n s → Signed n s
  | neg {n : Nat} {s} : 0 < n → Padded 1 n s → Signed (-n) ('-' :: s)

/-- The offset of the time zone in minutes. -/
def offset (d : DateTime) : Int :=
  if d.beforeGmt = true then -(60 * d.tzHour + d.tzMinute) else 60 * d.tzHour + d.tzMinute

/-- The text that RFC 5260 section 4.2 prescribes for a part of a date. -/
inductive Shows (e : DateExt) (d : DateTime) : DatePart → Str → Prop
  | year {s} : Padded 4 d.year s → Shows e d .year s
  | month {s} : Padded 2 d.month s → Shows e d .month s
  | day {s} : Padded 2 d.day s → Shows e d .day s
  | date {y m s} : Padded 4 d.year y → Padded 2 d.month m → Padded 2 d.day s →
      Shows e d .date (y ++ ['-'] ++ m ++ ['-'] ++ s)
  /-- The number of days since 17 November 1858. -/
  | julian {s} : Signed (e.julian d - 2400001) s → Shows e d .julian s
  | hour {s} : Padded 2 d.hour s → Shows e d .hour s
  | minute {s} : Padded 2 d.minute s → Shows e d .minute s
  | second {s} : Padded 2 d.second s → Shows e d .second s
  | time {h m s} : Padded 2 d.hour h → Padded 2 d.minute m → Padded 2 d.second s →
      Shows e d .time (h ++ [':'] ++ m ++ [':'] ++ s)
  | iso8601 : Shows e d .iso8601 (e.rfc3339 d)
  | std11 : Shows e d .std11 (e.rfc822 d)
  | east {h m} : 0 ≤ offset d → Padded 2 d.tzHour h → Padded 2 d.tzMinute m → Shows e d .zone ('+' :: (h ++ m))
  | west {h m} : offset d < 0 → Padded 2 d.tzHour h → Padded 2 d.tzMinute m → Shows e d .zone ('-' :: (h ++ m))
  | weekday {s} : Padded 1 (e.weekday d) s → Shows e d .weekday s

/-- One list of numbers is before the other: the first difference decides. -/
def Before (a b : List Nat) : Prop := List.Lex (· < ·) a b

/-! ## C75: texts -/

theorem valueOf_append (s : Str) (c : Char) : valueOf (s ++ [c]) = 10 * valueOf s + (c.toNat - 48) := by
  simp [valueOf]

theorem digits_fixed (s : Str) (h : ∀ c ∈ s, 48 ≤ c.toNat ∧ c.toNat ≤ 57) :
    s = fixed s.length (valueOf s) ∧ valueOf s < 10 ^ s.length := by
  induction s using List.reverseRecOn with
  | nil => exact ⟨rfl, by simp [valueOf]⟩
  | append_singleton s c ih =>
    obtain ⟨h1, h2⟩ := ih fun a ha => h a (by simp [ha])
    have hc := h c (by simp)
    rw [valueOf_append, List.length_append, List.length_singleton, fixed, Nat.pow_succ]
    have hd : (10 * valueOf s + (c.toNat - 48)) / 10 = valueOf s := by omega
    refine ⟨?_, by omega⟩
    rw [hd, ← h1]
    congr 2
    apply Char.ext
    apply UInt32.toNat.inj
    show c.toNat = (digit _).toNat
    rw [digit_toNat]
    omega

theorem fixed_digits (w n : Nat) : ∀ c ∈ fixed w n, 48 ≤ c.toNat ∧ c.toNat ≤ 57 := by
  induction w generalizing n with
  | zero => simp [fixed]
  | succ w ih =>
    intro c hc
    rw [fixed, List.mem_append, List.mem_singleton] at hc
    rcases hc with hc | rfl
    · exact ih _ c hc
    · rw [digit_toNat]; omega

theorem fixed_value (w n : Nat) (h : n < 10 ^ w) : valueOf (fixed w n) = n := by
  induction w generalizing n with
  | zero => simp at h; subst h; rfl
  | succ w ih =>
    rw [Nat.pow_succ] at h
    rw [fixed, valueOf_append, ih _ (by omega), digit_toNat]
    omega

theorem decimal_fixed (n : Nat) : ∃ w, 1 ≤ w ∧ decimal n = fixed w n ∧ n < 10 ^ w ∧ (w = 1 ∨ 10 ^ (w - 1) ≤ n) := by
  induction n using Nat.strongRecOn with
  | _ n ih =>
    by_cases h : n < 10
    · exact ⟨1, le_refl _, by rw [decimal, if_pos h]; simp [fixed], by simpa using h, .inl rfl⟩
    · obtain ⟨w, h1, h2, h3, h4⟩ := ih (n / 10) (by omega)
      refine ⟨w + 1, by omega, by rw [decimal, if_neg h, h2, fixed], by rw [Nat.pow_succ]; omega, .inr ?_⟩
      obtain ⟨k, rfl⟩ : ∃ k, w = k + 1 := ⟨w - 1, by omega⟩
      simp only [Nat.add_sub_cancel] at h4 ⊢
      rcases h4 with h4 | h4
      · have : k = 0 := by omega
        subst this
        simp
        omega
      · rw [Nat.pow_succ]
        omega

/-- `padded` is the only text of its kind. -/
theorem padded_iff (w n : Nat) (hw : 1 ≤ w) (s : Str) : Padded w n s ↔ s = padded w n := by
  have hp : Padded w n (padded w n) := by
    obtain ⟨v, h1, h2, h3, h4⟩ := decimal_fixed n
    by_cases hle : v ≤ w
    · have hlt : n < 10 ^ w := Nat.lt_of_lt_of_le h3 (Nat.pow_le_pow_right (by omega) hle)
      rw [padded_fixed w n hw hlt]
      exact ⟨fixed_digits w n, fixed_value w n hlt, by rw [fixed_length], .inl (fixed_length w n)⟩
    · have e : padded w n = fixed v n := by
        rw [padded, h2, fixed_length, show w - v = 0 by omega]
        rfl
      rw [e]
      refine ⟨fixed_digits v n, fixed_value v n h3, by rw [fixed_length]; omega, .inr ?_⟩
      rw [fixed_length]
      rcases h4 with h4 | h4
      · omega
      · exact h4
  constructor
  · intro h
    have key : ∀ a b : Str, Padded w n a → Padded w n b → ¬ a.length < b.length := by
      intro a b ha hb hlt
      have h1 := (digits_fixed a ha.1).2
      rw [ha.2.1] at h1
      have h2 : 10 ^ (b.length - 1) ≤ n := by
        rcases hb.2.2.2 with h | h
        · have := ha.2.2.1; omega
        · exact h
      have : 10 ^ a.length ≤ 10 ^ (b.length - 1) := Nat.pow_le_pow_right (by omega) (by omega)
      omega
    have hl : s.length = (padded w n).length := by
      have h1 := key _ _ h hp
      have h2 := key _ _ hp h
      omega
    rw [(digits_fixed s h.1).1, (digits_fixed _ hp.1).1, h.2.1, hp.2.1, hl]
  · rintro rfl
    exact hp

theorem decimal_padded (n : Nat) : decimal n = padded 1 n := by
  have : 1 - (decimal n).length = 0 := by have := decimal_pos n; omega
  rw [padded, this]
  rfl

theorem signed_iff (n : Int) (s : Str) : Signed n s ↔ s = signed n := by
  unfold signed
  constructor
  · intro h
    cases h with
    | pos h =>
      rw [if_neg (by omega), decimal_padded, Int.natAbs_natCast]
      exact (padded_iff _ _ (le_refl _) _).mp h
    | neg h0 h =>
      rw [if_pos (by omega), decimal_padded, Int.natAbs_neg, Int.natAbs_natCast]
      rw [(padded_iff _ _ (le_refl _) _).mp h]
  · rintro rfl
    by_cases h : n < 0
    · rw [if_pos h, decimal_padded]
      have := Signed.neg (n := n.natAbs) (by omega) ((padded_iff 1 n.natAbs (le_refl _) _).mpr rfl)
      rwa [show -(n.natAbs : Int) = n by omega] at this
    · rw [if_neg h, decimal_padded]
      have := Signed.pos (n := n.natAbs) ((padded_iff 1 n.natAbs (le_refl _) _).mpr rfl)
      rwa [show (n.natAbs : Int) = n by omega] at this

theorem zone_sign (d : DateTime) :
    (d.beforeGmt && (decide (0 < d.tzHour) || decide (0 < d.tzMinute))) = true ↔ offset d < 0 := by
  unfold offset
  cases d.beforeGmt <;> simp <;> omega

/-- C75: the text of a part of a date is the prescribed one (and no other is), except that the Julian day is wrong for days
before 17 November 1858. -/
theorem part_text_partial (e : DateExt) (d : DateTime) (p : DatePart) (hj : p = .julian → 2400001 ≤ e.julian d) (s : Str) :
    Shows e d p s ↔ s = p.eval e d := by
  have p1 := fun n s => padded_iff 1 n (le_refl _) s
  have p2 := fun n s => padded_iff 2 n (by omega) s
  have p4 := fun n s => padded_iff 4 n (by omega) s
  constructor
  · intro h
    cases h with
    | year h => exact (p4 _ _).mp h
    | month h => exact (p2 _ _).mp h
    | day h => exact (p2 _ _).mp h
    | date h1 h2 h3 =>
      rw [(p4 _ _).mp h1, (p2 _ _).mp h2, (p2 _ _).mp h3]
      simp [DatePart.eval]
    | julian h =>
      have := hj rfl
      rw [(signed_iff _ _).mp h, DatePart.eval]
      congr 1
      rw [Int.tdiv_eq_ediv_of_nonneg (by omega)]
      omega
    | hour h => exact (p2 _ _).mp h
    | minute h => exact (p2 _ _).mp h
    | second h => exact (p2 _ _).mp h
    | time h1 h2 h3 =>
      rw [(p2 _ _).mp h1, (p2 _ _).mp h2, (p2 _ _).mp h3]
      simp [DatePart.eval]
    | iso8601 => rfl
    | std11 => rfl
    | east h0 h1 h2 =>
      have : ¬ (d.beforeGmt && (decide (0 < d.tzHour) || decide (0 < d.tzMinute))) = true := by
        rw [zone_sign]; omega
      rw [(p2 _ _).mp h1, (p2 _ _).mp h2, DatePart.eval, if_neg this]
    | west h0 h1 h2 =>
      rw [(p2 _ _).mp h1, (p2 _ _).mp h2, DatePart.eval, if_pos ((zone_sign d).mpr h0)]
    | weekday h => rw [(p1 _ _).mp h, DatePart.eval, decimal_padded]
  · rintro rfl
    cases p with
    | year => exact .year ((p4 _ _).mpr rfl)
    | month => exact .month ((p2 _ _).mpr rfl)
    | day => exact .day ((p2 _ _).mpr rfl)
    | date =>
      have := Shows.date (e := e) ((p4 d.year _).mpr rfl) ((p2 d.month _).mpr rfl) ((p2 d.day _).mpr rfl)
      simpa [DatePart.eval] using this
    | julian =>
      have := hj rfl
      refine .julian ((signed_iff _ _).mpr ?_)
      rw [DatePart.eval]
      congr 1
      rw [Int.tdiv_eq_ediv_of_nonneg (by omega)]
      omega
    | hour => exact .hour ((p2 _ _).mpr rfl)
    | minute => exact .minute ((p2 _ _).mpr rfl)
    | second => exact .second ((p2 _ _).mpr rfl)
    | time =>
      have := Shows.time (e := e) ((p2 d.hour _).mpr rfl) ((p2 d.minute _).mpr rfl) ((p2 d.second _).mpr rfl)
      simpa [DatePart.eval] using this
    | iso8601 => exact .iso8601
    | std11 => exact .std11
    | zone =>
      rw [DatePart.eval]
      by_cases h : (d.beforeGmt && (decide (0 < d.tzHour) || decide (0 < d.tzMinute))) = true
      · rw [if_pos h]
        exact .west ((zone_sign d).mp h) ((p2 _ _).mpr rfl) ((p2 _ _).mpr rfl)
      · rw [if_neg h]
        exact .east (by rw [zone_sign] at h; omega) ((p2 _ _).mpr rfl) ((p2 _ _).mpr rfl)
    | weekday =>
      refine .weekday ((p1 _ _).mpr ?_)
      rw [DatePart.eval, decimal_padded]

/-- C75 fails for the Julian day: 16 and 17 November 1858 (days 2400000 and 2400001) have the same text. -/
theorem julian_repeats (e : DateExt) (d d' : DateTime) (h : e.julian d = 2400000) (h' : e.julian d' = 2400001) :
    DatePart.julian.eval e d = ['0'] ∧ DatePart.julian.eval e d' = ['0'] ∧ ¬ Shows e d .julian ['0'] := by
  have h0 : signed 0 = ['0'] := by
    simp only [signed]
    rw [if_neg (by omega), Int.natAbs_zero, decimal, if_pos (by omega)]
    rfl
  refine ⟨by rw [DatePart.eval, h]; exact h0, by rw [DatePart.eval, h']; exact h0, ?_⟩
  intro hs
  cases hs with
  | julian hs =>
    rw [h] at hs
    generalize hn : (2400000 - 2400001 : Int) = n at hs
    cases hs with
    | pos _ => omega

theorem join_lt (c : Char) {a b a' b' : Str} (h : a.length = a'.length) :
    StrLt (a ++ c :: b) (a' ++ c :: b') ↔ StrLt a a' ∨ (a = a' ∧ StrLt b b') := by
  rw [strLt_append _ _ _ _ h]
  have : StrLt (c :: b) (c :: b') ↔ StrLt b b' := by
    unfold StrLt
    constructor
    · intro h
      cases h with
      | rel h => exact absurd h (by omega)
      | cons h => exact h
    · exact .cons
  rw [this]

theorem before_three (a b c a' b' c' : Nat) :
    Before [a, b, c] [a', b', c'] ↔ a < a' ∨ (a = a' ∧ (b < b' ∨ (b = b' ∧ c < c'))) := by
  unfold Before
  constructor
  · intro h
    cases h with
    | rel h => exact .inl h
    | cons h =>
      cases h with
      | rel h => exact .inr ⟨rfl, .inl h⟩
      | cons h =>
        cases h with
        | rel h => exact .inr ⟨rfl, .inr ⟨rfl, h⟩⟩
        | cons h => cases h
  · rintro (h | ⟨rfl, h | ⟨rfl, h⟩⟩)
    · exact .rel h
    · exact .cons (.rel h)
    · exact .cons (.cons (.rel h))

/-- The texts of three numbers of fixed width with separators are ordered like the numbers. -/
theorem three_order (c : Char) (w : Nat) (hw : 1 ≤ w) {y m d y' m' d' : Nat} (hy : y < 10 ^ w) (hy' : y' < 10 ^ w)
    (hm : m < 100) (hm' : m' < 100) (hd : d < 100) (hd' : d' < 100) :
    (StrLt (padded w y ++ c :: (padded 2 m ++ c :: padded 2 d)) (padded w y' ++ c :: (padded 2 m' ++ c :: padded 2 d')) ↔
      Before [y, m, d] [y', m', d']) ∧
    (padded w y ++ c :: (padded 2 m ++ c :: padded 2 d) = padded w y' ++ c :: (padded 2 m' ++ c :: padded 2 d') ↔
      [y, m, d] = [y', m', d']) := by
  have h2 : (100 : Nat) = 10 ^ 2 := by norm_num
  rw [h2] at hm hm' hd hd'
  rw [padded_fixed w y hw hy, padded_fixed w y' hw hy', padded_fixed 2 m (by omega) hm, padded_fixed 2 m' (by omega) hm',
    padded_fixed 2 d (by omega) hd, padded_fixed 2 d' (by omega) hd']
  refine ⟨?_, ?_⟩
  · rw [join_lt c (by simp [fixed_length]), join_lt c (by simp [fixed_length]), fixed_lt w y y' hy hy',
      fixed_inj w y y' hy hy', fixed_lt 2 m m' hm hm', fixed_inj 2 m m' hm hm', fixed_lt 2 d d' hd hd', before_three]
  · constructor
    · intro h
      obtain ⟨h1, h3⟩ := List.append_inj h (by simp [fixed_length])
      simp only [List.cons.injEq, true_and] at h3
      obtain ⟨h4, h5⟩ := List.append_inj h3 (by simp [fixed_length])
      simp only [List.cons.injEq, true_and] at h5
      rw [(fixed_inj w y y' hy hy').mp h1, (fixed_inj 2 m m' hm hm').mp h4, (fixed_inj 2 d d' hd hd').mp h5]
    · intro h
      simp only [List.cons.injEq, and_true] at h
      rw [h.1, h.2.1, h.2.2]

/-- C75: the texts of dates and of times are ordered as the dates and times are, and are equal only for equal ones (up to
the year 9999); so the relations of `:value` with the comparator `i;octet` are the chronological ones. -/
theorem chronological_partial (e : DateExt) (d d' : DateTime)
    (hy : d.year < 10000 ∧ d'.year < 10000) (hm : d.month < 100 ∧ d'.month < 100) (hd : d.day < 100 ∧ d'.day < 100)
    (hh : d.hour < 100 ∧ d'.hour < 100) (hmi : d.minute < 100 ∧ d'.minute < 100) (hs : d.second < 100 ∧ d'.second < 100)
    (r : Rel) (x : Ext F) :
    let sat (lt gt eq : Prop) : Prop := match r with
      | .lt => lt | .gt => gt | .le => lt ∨ eq | .ge => gt ∨ eq | .eq => eq | .ne => ¬ eq
    (Comparator.octet.relational x r (.text (DatePart.date.eval e d)) (.text (DatePart.date.eval e d')) = true ↔
      sat (Before [d.year, d.month, d.day] [d'.year, d'.month, d'.day])
        (Before [d'.year, d'.month, d'.day] [d.year, d.month, d.day])
        ([d.year, d.month, d.day] = [d'.year, d'.month, d'.day])) ∧
    (Comparator.octet.relational x r (.text (DatePart.time.eval e d)) (.text (DatePart.time.eval e d')) = true ↔
      sat (Before [d.hour, d.minute, d.second] [d'.hour, d'.minute, d'.second])
        (Before [d'.hour, d'.minute, d'.second] [d.hour, d.minute, d.second])
        ([d.hour, d.minute, d.second] = [d'.hour, d'.minute, d'.second])) := by
  have h4 : (10000 : Nat) = 10 ^ 4 := by norm_num
  have h2 : (100 : Nat) = 10 ^ 2 := by norm_num
  rw [h4] at hy
  have total : ∀ a b c a' b' c' : Nat, (¬ Before [a', b', c'] [a, b, c]) ↔
      Before [a, b, c] [a', b', c'] ∨ [a, b, c] = [a', b', c'] := by
    intro a b c a' b' c'
    simp only [before_three, List.cons.injEq, and_true]
    omega
  have total' : ∀ a b c a' b' c' : Nat, (¬ Before [a, b, c] [a', b', c']) ↔
      Before [a', b', c'] [a, b, c] ∨ [a, b, c] = [a', b', c'] := by
    intro a b c a' b' c'
    rw [total a' b' c' a b c]
    simp only [List.cons.injEq, and_true]
    constructor <;> rintro (h | h) <;> first | exact .inl h | (right; omega)
  have D := three_order '-' 4 (by omega) hy.1 hy.2 hm.1 hm.2 hd.1 hd.2
  have D' := three_order '-' 4 (by omega) hy.2 hy.1 hm.2 hm.1 hd.2 hd.1
  have T := three_order ':' 2 (by omega) (h2 ▸ hh.1) (h2 ▸ hh.2) hmi.1 hmi.2 hs.1 hs.2
  have T' := three_order ':' 2 (by omega) (h2 ▸ hh.2) (h2 ▸ hh.1) hmi.2 hmi.1 hs.2 hs.1
  simp only [Comparator.relational, relational_strings, Item.str, DatePart.eval]
  cases r with
  | ge =>
    simp only [StrSat, D.1, T.1]
    exact ⟨total' .., total' ..⟩
  | _ => simp only [StrSat, D.1, D.2, D'.1, T.1, T.2, T'.1, total, ne_eq, and_self]

/-- C75 fails from the year 10000 on: its text is before that of the year 9999. -/
theorem year_10000 (e : DateExt) (d d' : DateTime) (h : d.year = 9999) (h' : d'.year = 10000) :
    StrLt (DatePart.date.eval e d') (DatePart.date.eval e d) ∧ StrLt (DatePart.year.eval e d') (DatePart.year.eval e d) := by
  have e1 : padded 4 9999 = fixed 4 9999 := padded_fixed 4 9999 (by omega) (by norm_num)
  have e2 : padded 4 10000 = fixed 5 10000 := by
    have : decimal 10000 = fixed 5 10000 := by
      have := padded_fixed 5 10000 (by omega) (by decide)
      rw [← this, padded]
      have : (decimal 10000).length = 5 := by
        obtain ⟨w, h1, h2, h3, h4⟩ := decimal_fixed 10000
        rw [h2, fixed_length]
        have a : ¬ w ≤ 4 := fun h => by
          have : 10 ^ w ≤ 10 ^ 4 := Nat.pow_le_pow_right (by omega) h
          omega
        have b : ¬ 6 ≤ w := fun h => by
          have : 10 ^ 5 ≤ 10 ^ (w - 1) := Nat.pow_le_pow_right (by omega) (by omega)
          rcases h4 with h4 | h4 <;> omega
        omega
      rw [this]
      rfl
    rw [padded, this, fixed_length]
    rfl
  simp only [DatePart.eval, h, h', e1, e2]
  exact ⟨.rel (by decide), .rel (by decide)⟩

/-! ## C74: date and currentdate -/

/-- The field contains a date. -/
inductive FieldDate (x : Ext F) (e : DateExt) (f : Field) (d : DateTime) : Prop
  | parsed : e.parsed f = some d → e.valid d = true → FieldDate x e f d
  | raw : e.parsed f = none → f.added = false → e.parse f.raw = some d → e.valid d = true → FieldDate x e f d
  | added {t} : e.parsed f = none → f.added = true → f.parsed = .text t → e.parse (x.utf8 (t ++ ['\n'])) = some d →
      e.valid d = true → FieldDate x e f d

theorem findDate_iff (x : Ext F) (e : DateExt) (f : Field) (d : DateTime) :
    findDate e x.utf8 f = some d ↔ FieldDate x e f d := by
  unfold findDate
  cases hp : e.parsed f with
  | some d' =>
    simp only
    constructor
    · intro h
      split at h
      · rename_i hv
        cases h
        exact .parsed hp hv
      · cases h
    · intro h
      cases h with
      | parsed h hv =>
        rw [hp] at h
        cases h
        rw [if_pos hv]
      | raw h => rw [hp] at h; cases h
      | added h => rw [hp] at h; cases h
  | none =>
    simp only [Option.filter_eq_some_iff]
    constructor
    · rintro ⟨h, hv⟩
      cases ha : f.added with
      | false =>
        rw [ha] at h
        exact .raw hp ha (by simpa using h) hv
      | true =>
        rw [ha] at h
        simp only [Bool.not_true, Bool.false_eq_true, if_false] at h
        split at h
        · rename_i t ht
          exact .added hp ha ht h hv
        · cases h
    · intro h
      cases h with
      | parsed h hv => rw [hp] at h; cases h
      | raw _ ha h hv => simp [ha, h, hv]
      | added _ ha ht h hv => simp [ha, ht, h, hv]

/-- The date in the requested time zone. -/
inductive InZone (e : DateExt) (d : DateTime) : Zone → DateTime → Prop
  | time {tz} : InZone e d (.time tz) (e.toZone d tz)
  | original : InZone e d .original d
  | local : InZone e d .local (e.utc d)

theorem inZone_iff (e : DateExt) (d : DateTime) (z : Zone) (d' : DateTime) : InZone e d z d' ↔ d' = z.eval e d := by
  constructor
  · intro h
    cases h <;> rfl
  · rintro rfl
    cases z
    · exact .time
    · exact .original
    · exact .local

section
variable [DecidableEq N]

/-- A value of the `date` test: the text of the requested part of a date in one of the fields, in the requested zone. -/
def DateValue (x : Ext F) (e : DateExt) (zone : Zone) (dp : DatePart) (f : Field) (s : Str) : Prop :=
  ∃ d d', FieldDate x e f d ∧ InZone e d zone d' ∧ Shows e d' dp s

theorem dateValue_iff (x : Ext F) (e : DateExt) (zone : Zone) (dp : DatePart) (found : List (Mime.Header N Field))
    (hj : ∀ h ∈ found, ∀ d d', FieldDate x e h.value d → InZone e d zone d' → dp = .julian → 2400001 ≤ e.julian d')
    (s : Str) :
    s ∈ (found.filterMap fun h => findDate e x.utf8 h.value).map (fun d => dp.eval e (zone.eval e d)) ↔
      ∃ h ∈ found, DateValue x e zone dp h.value s := by
  simp only [List.mem_map, List.mem_filterMap, findDate_iff, DateValue]
  constructor
  · rintro ⟨d, ⟨h, hh, hd⟩, rfl⟩
    have hz := (inZone_iff e d zone _).mpr rfl
    exact ⟨h, hh, d, _, hd, hz, (part_text_partial e _ dp (hj h hh d _ hd hz) _).mpr rfl⟩
  · rintro ⟨h, hh, d, d', hd, hz, hs⟩
    refine ⟨d, ⟨h, hh, hd⟩, ?_⟩
    have := (part_text_partial e _ dp (hj h hh d _ hd hz) _).mp hs
    rw [this, (inZone_iff e d zone _).mp hz]

/-- C74: `date` is true exactly if the text of the requested part of a date in one of the fields looked at matches one of
the keys.  Not for `:regex`, which is treated as `:matches`, and not for the Julian day of days before 17 November 1858
(`julian_repeats`). -/
theorem date_test_partial {x : Ext F} (hx : x.Ok) (e : DateExt) (isNot : Bool) (c : Comparator) (m : Match)
    (hm : m.comparing) (hr : ∀ cp, m ≠ .regex cp) (zone : Zone) (dp : DatePart) (parts : List (Mime.Part N Field))
    (t : Mime.Tree) (ht : Mime.Represents parts t) (name : Option N) (index : Option Int) (anychild : Bool) (fuel : Nat)
    (hfuel : t.preorder.length < fuel) (keys : List (Val F))
    (hj : ∀ n h, name = some n → Looked parts (searched anychild t) [n] index h → ∀ d d', FieldDate x e h.value d →
      InZone e d zone d' → dp = .julian → 2400001 ≤ e.julian d')
    (hv : ∀ n h s, name = some n → Looked parts (searched anychild t) [n] index h → DateValue x e zone dp h.value s →
      Charwise x c m s) :
    ∃ b caps, dateExec x e isNot c m zone dp parts t.id name index anychild fuel keys =
        some ⟨.bool (b ^^ isNot), caps⟩ ∧
      (b = true ↔ ∃ n h s, name = some n ∧ Looked parts (searched anychild t) [n] index h ∧
        DateValue x e zone dp h.value s ∧ ∃ k ∈ keys, Holds x c m (.text s) (.val k)) := by
  cases name with
  | none => exact ⟨false, [], rfl, by simp⟩
  | some n =>
    obtain ⟨found, hf, hl⟩ := found_iff parts t ht [n] index anychild fuel hfuel
    have hval := dateValue_iff x e zone dp (found.map (·.1)) fun h hh => hj n h rfl ((hl h).mp hh)
    refine ⟨(search x c m (((found.map (·.1)).filterMap fun h => findDate e x.utf8 h.value).map
        fun d => dp.eval e (zone.eval e d)) keys).2, (search x c m (((found.map (·.1)).filterMap fun h =>
        findDate e x.utf8 h.value).map fun d => dp.eval e (zone.eval e d)) keys).1, ?_, ?_⟩
    · rw [dateExec, hf, Option.map_some]
      cases m <;> first | exact hm.elim | exact absurd rfl (hr _) | rfl
    · rw [search_iff hx]
      · constructor
        · rintro ⟨s, h1, k, h2, h3⟩
          obtain ⟨h, h4, h5⟩ := (hval s).mp h1
          exact ⟨n, h, s, rfl, (hl h).mp h4, h5, k, h2, h3⟩
        · rintro ⟨n', h, s, hn, h4, h5, k, h2, h3⟩
          cases hn
          exact ⟨s, (hval s).mpr ⟨h, (hl h).mpr h4, h5⟩, k, h2, h3⟩
      · intro s h1
        obtain ⟨h, h4, h5⟩ := (hval s).mp h1
        exact hv n h s rfl ((hl h).mp h4) h5

/-- C74: `date :count` compares the number of fields with a date with each key. -/
theorem date_count {x : Ext F} (hx : x.Ok) (e : DateExt) (isNot : Bool) (c : Comparator) (r : Rel) (zone : Zone)
    (dp : DatePart) (parts : List (Mime.Part N Field)) (t : Mime.Tree) (ht : Mime.Represents parts t) (n : N)
    (anychild : Bool) (fuel : Nat) (hfuel : t.preorder.length < fuel) (keys : List (Val F))
    (dated : Field → Bool) (hdated : ∀ f, dated f = true ↔ ∃ d, FieldDate x e f d) :
    ∃ b, dateExec x e isNot c (.count r) zone dp parts t.id (some n) none anychild fuel keys =
        some ⟨.bool (b ^^ isNot), []⟩ ∧
      (b = true ↔ ∃ k ∈ keys,
        NumSat x.flt (.int ((fieldsCalled parts (searched anychild t) n).countP dated : Nat)) (number x k) r) := by
  obtain ⟨found, hf, hl⟩ := found_called parts t ht n anychild fuel hfuel
  refine ⟨_, by rw [dateExec, hf, Option.map_some, dateTest], ?_⟩
  rw [countTest_iff hx, ← hl]
  have : ((found.map (·.1)).filterMap fun h => findDate e x.utf8 h.value).length =
      (found.map (·.1.value)).countP dated := by
    clear hf hl
    induction found with
    | nil => rfl
    | cons a as ih =>
      simp only [List.map_cons, List.filterMap_cons, List.countP_cons]
      cases h : findDate e x.utf8 a.1.value with
      | none =>
        have : dated a.1.value = false := by
          rw [← Bool.not_eq_true, hdated]
          rintro ⟨d, hd⟩
          rw [(findDate_iff ..).mpr hd] at h
          cases h
        simp only [this, Bool.false_eq_true, if_false, Nat.add_zero]
        exact ih
      | some d =>
        have : dated a.1.value = true := (hdated _).mpr ⟨d, (findDate_iff ..).mp h⟩
        simp only [this, if_true, List.length_cons]
        rw [← ih]
  rw [this]

omit [DecidableEq N]

/-- C74 fails for `:regex`, both for `date` and for `currentdate`: the result does not depend on regular expressions at
all. -/
theorem date_regex_is_glob (x x' : Ext F) (hxx : x' = { x with isMatch := x'.isMatch, captures := x'.captures })
    (e : DateExt) (isNot : Bool) (c : Comparator) (cp : Nat) (zone : Zone) (dp : DatePart)
    (found : List (Mime.Header N Field)) (keys : List (Val F)) (one : F) (now : Int) (z : Option Int) :
    dateTest x e isNot c (.regex cp) zone dp found keys = dateTest x' e isNot c (.matches cp) zone dp found keys ∧
    currentDateTest x one e now z dp isNot c (.regex cp) keys =
      currentDateTest x' one e now z dp isNot c (.matches cp) keys := by
  rw [hxx]
  exact ⟨rfl, rfl⟩
end

/-- C74: `currentdate` is true exactly if the text of the requested part of the current date, in the given zone, matches
one of the keys.  The same exceptions as for `date`. -/
theorem currentdate_test_partial {x : Ext F} (hx : x.Ok) (one : F) (e : DateExt) (now : Int) (z : Option Int)
    (dp : DatePart) (isNot : Bool) (c : Comparator) (m : Match) (hm : m.comparing) (hr : ∀ cp, m ≠ .regex cp)
    (keys : List (Val F)) (d : DateTime)
    (hd : (z = none ∧ d = e.ofTime now) ∨ ∃ tz, z = some tz ∧ InZone e (e.ofTime now) (.time tz) d)
    (hj : dp = .julian → 2400001 ≤ e.julian d) (hv : ∀ s, Shows e d dp s → Charwise x c m s) :
    ∃ b caps, currentDateTest x one e now z dp isNot c m keys = ⟨.bool (b ^^ isNot), caps⟩ ∧
      (b = true ↔ ∃ s, Shows e d dp s ∧ ∃ k ∈ keys, Holds x c m (.text s) (.val k)) := by
  have hsh := part_text_partial e d dp hj
  refine ⟨(each (fun k => attempt x c m (.text (dp.eval e d)) (.val k)) keys []).2,
    (each (fun k => attempt x c m (.text (dp.eval e d)) (.val k)) keys []).1, ?_, ?_⟩
  · rcases hd with ⟨rfl, rfl⟩ | ⟨tz, rfl, h⟩
    · cases m <;> first | exact hm.elim | exact absurd rfl (hr _) | rfl
    · rw [(inZone_iff ..).mp h]
      cases m <;> first | exact hm.elim | exact absurd rfl (hr _) | rfl
  · rw [keys_any, List.any_eq_true]
    simp only [hsh, exists_eq_left]
    exact exists_congr fun k => and_congr_right fun _ => verdict_iff hx c m _ _ (hv _ ((hsh _).mpr rfl))

/-! ## Examples -/

def exDate : DateTime := ⟨2023, 4, 5, 6, 7, 8, true, 0, 30⟩

/-- Every field contains the date above. -/
def exDates : DateExt where
  parsed _ := none
  parse _ := some exDate
  valid _ := true
  julian _ := 2460040
  rfc3339 _ := []
  rfc822 _ := []
  weekday _ := 3
  toZone d _ := d
  utc d := d
  ofTime _ := exDate

theorem exDecimals : decimal 2023 = "2023".toList ∧ decimal 4 = "4".toList ∧ decimal 5 = "5".toList ∧
    decimal 30 = "30".toList ∧ decimal 0 = "0".toList ∧ decimal 60039 = "60039".toList := by
  refine ⟨?_, ?_, ?_, ?_, ?_, ?_⟩ <;> simp [decimal, digit]

example : DatePart.date.eval exDates exDate = "2023-04-05".toList := by
  simp [DatePart.eval, exDate, padded, exDecimals]
example : DatePart.zone.eval exDates exDate = "-0030".toList := by
  simp [DatePart.eval, exDate, padded, exDecimals]
example : DatePart.julian.eval exDates exDate = "60039".toList := by
  simp [DatePart.eval, exDates, signed, exDecimals]
example : DatePart.julian = .julian → 2400001 ≤ exDates.julian exDate := by decide
example : FieldDate exExt exDates ⟨.text "Ab".toList, true, []⟩ exDate := .added rfl rfl rfl rfl rfl
example : dateExec exExt exDates false .octet .contains .original .date exParts 0 (some 1) none false 3
    [.str "04".toList] = some ⟨.bool true, []⟩ := by
  have h : DatePart.date.eval exDates exDate = "2023-04-05".toList := by
    simp [DatePart.eval, exDate, padded, exDecimals]
  have h2 : dateExec exExt exDates false .octet .contains .original .date exParts 0 (some 1) none false 3
      [.str "04".toList] =
      some ⟨.bool ((search exExt .octet .contains [DatePart.date.eval exDates exDate, DatePart.date.eval exDates exDate]
          [.str "04".toList]).2 ^^ false),
        (search exExt .octet .contains [DatePart.date.eval exDates exDate, DatePart.date.eval exDates exDate]
          [.str "04".toList]).1⟩ := rfl
  rw [h2, h]
  rfl
example : dateExec exExt exDates false .octet (.count .eq) .original .date exParts 0 (some 1) none false 3
    [.str "2".toList] = some ⟨.bool true, []⟩ := by rfl
example : Before [2023, 4, 5] [2023, 10, 1] := .cons (.rel (by decide))

end Sieve.Tests
