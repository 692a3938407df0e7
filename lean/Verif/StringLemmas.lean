import Verif.StringSpec

/-!
# Strings: lemmas
-/

namespace Sieve.Str

section Generic
variable {P : Type} {token : Bytes → Option (List P) → Prop} {keep : UInt8 → P}

/-- No token begins at the front of `s`. -/
def NoToken (token : Bytes → Option (List P) → Prop) (s : Bytes) : Prop := ∀ w o r, token w o → s ≠ w ++ r

/-- Tokens are never empty, and no token is the beginning of another one. -/
structure PrefixFree (token : Bytes → Option (List P) → Prop) : Prop where
  nonempty : ∀ {w o}, token w o → w ≠ []
  unique : ∀ {w w' o o' r r'}, token w o → token w' o' → w ++ r = w' ++ r' → w = w' ∧ o = o'

theorem keep_iff {c : UInt8} {t : Bytes} (h : NoToken token (c :: t)) (sg : List P) :
    Replaced token keep (c :: t) sg ↔ ∃ q, sg = keep c :: q ∧ Replaced token keep t q := by
  constructor
  · intro hr
    generalize hs : c :: t = s at hr
    cases hr with
    | nil => cases hs
    | token hw _ => exact absurd hs (h _ _ _ hw)
    | keep _ hq => cases hs; exact ⟨_, rfl, hq⟩
  · rintro ⟨q, rfl, hq⟩
    exact .keep h hq

theorem chunk_iff (w : Bytes) {t : Bytes} (h : ∀ a c b, w = a ++ c :: b → NoToken token (c :: b ++ t)) (sg : List P) :
    Replaced token keep (w ++ t) sg ↔ ∃ q, sg = w.map keep ++ q ∧ Replaced token keep t q := by
  induction w generalizing sg with
  | nil => simp
  | cons c w ih =>
    have h0 : NoToken token (c :: (w ++ t)) := h [] c w rfl
    have ih' := ih (fun a c' b e => h (c :: a) c' b (by rw [e]; rfl))
    rw [List.cons_append, keep_iff h0]
    constructor
    · rintro ⟨q, rfl, hq⟩
      obtain ⟨q', rfl, hq'⟩ := (ih' q).mp hq
      exact ⟨q', rfl, hq'⟩
    · rintro ⟨q, rfl, hq⟩
      exact ⟨_, rfl, (ih' _).mpr ⟨q, rfl, hq⟩⟩

theorem token_iff (hp : PrefixFree token) {w : Bytes} {o : Option (List P)} {t : Bytes} (h : token w o) (sg : List P) :
    Replaced token keep (w ++ t) sg ↔ ∃ p q, o = some p ∧ sg = p ++ q ∧ Replaced token keep t q := by
  constructor
  · intro hr
    generalize hs : w ++ t = s at hr
    cases hr with
    | nil => exact absurd (List.append_eq_nil_iff.mp hs).1 (hp.nonempty h)
    | @token w' p rest q hw hq =>
      obtain ⟨rfl, rfl⟩ := hp.unique h hw hs
      have := List.append_cancel_left hs
      subst this
      exact ⟨p, q, rfl, rfl, hq⟩
    | keep hn _ => exact absurd hs.symm (hn _ _ _ h)
  · rintro ⟨p, q, rfl, rfl, hq⟩
    exact .token h hq

theorem replaced_unique (hp : PrefixFree token) {s : Bytes} {a b : List P} (ha : Replaced token keep s a)
    (hb : Replaced token keep s b) : a = b := by
  induction ha generalizing b with
  | nil =>
    generalize hs : ([] : Bytes) = s at hb
    cases hb with
    | nil => rfl
    | token hw _ => exact absurd (List.append_eq_nil_iff.mp hs.symm).1 (hp.nonempty hw)
    | keep => cases hs
  | token hw _ ih =>
    obtain ⟨p, q, e, rfl, hq⟩ := (token_iff hp hw b).mp hb
    cases e
    rw [ih hq]
  | keep hn _ ih =>
    obtain ⟨q, rfl, hq⟩ := (keep_iff hn b).mp hb
    rw [ih hq]

end Generic

theorem stop_unique {d : UInt8} {a a' b b' : Bytes} (ha : d ∉ a) (ha' : d ∉ a') (h : a ++ d :: b = a' ++ d :: b') :
    a = a' ∧ b = b' := by
  induction a generalizing a' with
  | nil =>
    cases a' with
    | nil => simpa using h
    | cons c a' => simp at h ha'; exact absurd h.1 (by tauto)
  | cons c a ih =>
    cases a' with
    | nil => simp at h ha; exact absurd h.1.symm (by tauto)
    | cons c' a' =>
      simp only [List.cons_append, List.cons.injEq] at h
      obtain ⟨rfl, h⟩ := h
      obtain ⟨rfl, rfl⟩ := ih (fun m => ha (by simp [m])) (fun m => ha' (by simp [m])) h
      exact ⟨rfl, rfl⟩

/-- The bytes of names: none of them is a brace or a dollar sign. -/
def NameByte (c : UInt8) : Prop :=
  (97 ≤ c ∧ c ≤ 122) ∨ (65 ≤ c ∧ c ≤ 90) ∨ (48 ≤ c ∧ c ≤ 57) ∨ c ∈ ([95, 91, 93, 42, 45, 46, 58] : Bytes)

instance : DecidablePred NameByte := fun c => by unfold NameByte; infer_instance

theorem nameByte_ne {c d : UInt8} (hc : NameByte c) (hd : ¬ NameByte d) : c ≠ d := by rintro rfl; exact hd hc

theorem not_mem_name {n : Bytes} (h : ∀ c ∈ n, NameByte c) {d : UInt8} (hd : ¬ NameByte d) : d ∉ n :=
  fun m => hd (h d m)

variable {V F : Type}

theorem reference_prefixFree (x : Ext V F) : PrefixFree (Reference x) := by
  constructor
  · rintro w o ⟨n, _, rfl, _⟩; simp
  · rintro w w' o o' r r' ⟨n, hn, rfl, ho⟩ ⟨n', hn', rfl, ho'⟩ h
    have h' : n ++ 125 :: r = n' ++ 125 :: r' := by simpa using h
    obtain ⟨rfl, rfl⟩ := stop_unique (not_mem_name hn.chars (by decide)) (not_mem_name hn'.chars (by decide)) h'
    refine ⟨rfl, ?_⟩
    revert ho ho'
    cases x.resolve n <;> simp_all

theorem reference_dollar {x : Ext V F} {c : UInt8} (hc : c ≠ 36) (t : Bytes) : NoToken (Reference x) (c :: t) := by
  rintro w o r ⟨n, _, rfl, _⟩ h
  simp at h
  exact hc h.1

theorem reference_brace {x : Ext V F} {c : UInt8} (hc : c ≠ 123) (t : Bytes) : NoToken (Reference x) (36 :: c :: t) := by
  rintro w o r ⟨n, _, rfl, _⟩ h
  simp at h
  exact hc h.1

theorem reference_end {x : Ext V F} : NoToken (Reference x) [36] := by
  rintro w o r ⟨n, _, rfl, _⟩ h
  simp at h

/-- A beginning of a name, as the loop reads it. -/
structure Begins (n : Bytes) : Prop where
  chars : ∀ c ∈ n, NameByte c
  colons : ∀ a b, n = a ++ 58 :: b → 46 ∈ a

theorem Begins.name {n : Bytes} (h : Begins n) (h0 : n ≠ []) : IsName n := ⟨h0, h.chars, h.colons⟩

theorem Begins.nil : Begins [] := ⟨by simp, by simp⟩

theorem Begins.snoc {n : Bytes} (h : Begins n) {c : UInt8} (hc : NameByte c) (h58 : c = 58 → 46 ∈ n) :
    Begins (n ++ [c]) := by
  refine ⟨fun d hd => ?_, fun a b e => ?_⟩
  · rcases List.mem_append.mp hd with hd | hd
    · exact h.chars d hd
    · rw [List.mem_singleton.mp hd]; exact hc
  · rcases List.eq_nil_or_concat b with rfl | ⟨b', y, rfl⟩
    · have := List.append_inj' e rfl
      rw [← this.1]
      exact h58 (by simpa using this.2)
    · have e' : n ++ [c] = (a ++ 58 :: b') ++ [y] := by simpa using e
      have := List.append_inj' e' rfl
      exact h.colons a b' this.1

/-- Text that begins like a reference and is none. -/
theorem no_reference {x : Ext V F} {n : Bytes} (hn : ∀ c ∈ n, NameByte c) {t : Bytes}
    (h : NoToken (Reference x) ([36, 123] ++ n ++ t)) :
    ∀ a c b, [36, 123] ++ n = a ++ c :: b → NoToken (Reference x) (c :: b ++ t) := by
  intro a c b e
  cases a with
  | nil =>
    have e' : [36, 123] ++ n = c :: b := e
    rw [← e']; exact h
  | cons y a =>
    refine reference_dollar ?_ _
    rintro rfl
    have e' : 123 :: n = a ++ 36 :: b := by simpa using (List.cons.inj e).2
    have : (36 : UInt8) ∈ 123 :: n := by rw [e']; simp
    rcases List.mem_cons.mp this with h1 | h1
    · exact absurd h1 (by decide)
    · exact absurd (hn _ h1) (by decide)

/-- A name followed by a byte that neither continues nor ends it. -/
theorem bad_reference {x : Ext V F} {n : Bytes} (hn : Begins n) {c : UInt8} (t : Bytes)
    (hc : ¬ NameByte c ∧ c ≠ 125 ∨ c = 125 ∧ n = [] ∨ c = 58 ∧ 46 ∉ n) :
    NoToken (Reference x) ([36, 123] ++ n ++ c :: t) := by
  rintro w o r ⟨m, hm, rfl, _⟩ h
  have h' : n ++ c :: t = m ++ 125 :: r := by simpa using h
  rcases hc with ⟨hb, h125⟩ | ⟨rfl, rfl⟩ | ⟨rfl, h46⟩
  · have hmem : c ∈ m ++ [125] := by
      by_contra hnot
      have hcm : c ∉ m := fun hh => hnot (by simp [hh])
      obtain ⟨k, hk⟩ | ⟨k, hk⟩ : (∃ k, n = (m ++ [125]) ++ k) ∨ (∃ k, m ++ [125] = n ++ c :: k) := by
        have h'' : n ++ (c :: t) = (m ++ [125]) ++ r := by simpa using h'
        rcases List.append_eq_append_iff.mp h'' with ⟨as, h1, h2⟩ | ⟨bs, h1, h2⟩
        · cases as with
          | nil => left; exact ⟨[], by simpa using h1.symm⟩
          | cons y as =>
            right
            simp only [List.cons_append, List.cons.injEq] at h2
            exact ⟨as, by rw [h1, h2.1]⟩
        · exact Or.inl ⟨bs, h1⟩
      · have : (125 : UInt8) ∈ n := by rw [hk]; simp
        exact absurd (hn.chars _ this) (by decide)
      · exact hnot (by rw [hk]; simp)
    rcases List.mem_append.mp hmem with h1 | h1
    · exact hb (hm.chars c h1)
    · exact h125 (by simpa using h1)
  · have hm0 := hm.nonempty
    cases m with
    | nil => exact hm0 rfl
    | cons y m =>
      have : y = 125 := (List.cons.inj h').1.symm
      exact absurd (hm.chars y (by simp)) (by subst this; decide)
  · have h'' : n ++ (58 :: t) = m ++ 125 :: r := h'
    rcases List.append_eq_append_iff.mp h'' with ⟨as, h1, h2⟩ | ⟨bs, h1, h2⟩
    · cases as with
      | nil => simp at h2
      | cons y as =>
        simp only [List.cons_append, List.cons.injEq] at h2
        obtain ⟨rfl, -⟩ := h2
        exact h46 (hm.colons n as h1)
    · cases bs with
      | nil => simp at h2
      | cons y bs =>
        simp only [List.cons_append, List.cons.injEq] at h2
        obtain ⟨rfl, -⟩ := h2
        have : (125 : UInt8) ∈ n := by rw [h1]; simp
        exact absurd (hn.chars _ this) (by decide)

/-- A name that is not finished. -/
theorem open_reference {x : Ext V F} {n : Bytes} (hn : Begins n) : NoToken (Reference x) ([36, 123] ++ n) := by
  rintro w o r ⟨m, hm, rfl, _⟩ h
  have h' : n = m ++ 125 :: r := by simpa using h
  have : (125 : UInt8) ∈ n := by rw [h']; simp
  exact absurd (hn.chars _ this) (by decide)

/-- A name in an unknown namespace. -/
theorem invalid_reference {x : Ext V F} {n : Bytes} (hn : Begins n) (t : Bytes) (hi : x.resolve n = .invalid) :
    NoToken (Reference x) ([36, 123] ++ n ++ 125 :: t) := by
  rintro w o r ⟨m, hm, rfl, ho⟩ h
  have h' : n ++ 125 :: t = m ++ 125 :: r := by simpa using h
  obtain ⟨rfl, rfl⟩ := stop_unique (not_mem_name hn.chars (by decide)) (not_mem_name hm.chars (by decide)) h'
  rw [hi] at ho
  exact ho

end Sieve.Str
