import Verif.ScriptSpec
import Verif.ArgsProps

/-!
# Whole scripts: `require`, labels and what is skipped

The readers of `ScriptModel` accept what `ScriptSpec` describes.
-/

namespace Sieve.Script

open Sieve.Args

variable {F : Type}

/-! ## `require` -/

theorem readNames_iff (x : Ext F) : ∀ (n : Nat) (ts : List (Tok F)) (ss : List (List UInt8)) (r : List (Tok F)),
    ts.length ≤ n → (readNames x ts = some (ss, r) ↔ ∃ t s us rest, ts = t :: us.flatten ++ .bracketClose :: r ∧
      IsConst x t s ∧ List.Forall₂ (fun u n => ∃ c, u = [.comma, c] ∧ IsConst x c n) us rest ∧ ss = s :: rest) := by
  intro n
  induction n with
  | zero =>
    intro ts ss r hl
    have : ts = [] := List.eq_nil_of_length_eq_zero (by omega)
    subst this
    simp [readNames]
  | succ n ih =>
    intro ts ss r hl
    constructor
    · intro h
      unfold readNames at h
      split at h
      · rename_i t ts
        obtain ⟨s, hs, h⟩ := Option.map_eq_some_iff.1 h
        cases h
        exact ⟨t, s, [], [], rfl, (constText_iff x t s).1 hs, .nil, rfl⟩
      · rename_i t ts
        cases hc : constText x t with
        | none => rw [hc] at h; cases h
        | some s =>
          cases hr : readNames x ts with
          | none => rw [hc, hr] at h; cases h
          | some p =>
            rw [hc, hr] at h
            cases h
            obtain ⟨t', s', us, rest, rfl, h1, h2, h3⟩ := (ih ts p.1 p.2 (by simp at hl; omega)).1 hr
            exact ⟨t, s, [.comma, t'] :: us, p.1, by simp, (constText_iff x t s).1 hc, h3 ▸ .cons ⟨t', rfl, h1⟩ h2, rfl⟩
      · cases h
    · rintro ⟨t, s, us, rest, rfl, h1, h2, rfl⟩
      cases h2 with
      | nil =>
        simp only [List.flatten_nil, List.nil_append, List.cons_append]
        rw [readNames, (constText_iff x t s).2 h1]; rfl
      | cons h3 h4 =>
        rename_i u n us ns
        obtain ⟨c, rfl, hc⟩ := h3
        have e : t :: ([Lex.Token.comma, c] :: us).flatten ++ .bracketClose :: r =
            t :: .comma :: (c :: us.flatten ++ .bracketClose :: r) := by simp
        rw [e] at hl ⊢
        have := (ih (c :: us.flatten ++ .bracketClose :: r) (_ :: _) r (by simp at hl ⊢; omega)).2
          ⟨c, _, us, _, rfl, hc, h4, rfl⟩
        unfold readNames
        simp only [(constText_iff x t s).2 h1, this]

theorem readRequire_cons {x : Ext F} {t : Tok F} (h : t ≠ .bracketOpen) (ts : List (Tok F)) :
    readRequire x (t :: ts) = (constText x t).map fun s => ([s], ts) := by
  cases t <;> first | rfl | exact absurd rfl h

theorem readRequire_iff (x : Ext F) (ts : List (Tok F)) (ss : List (List UInt8)) (r : List (Tok F)) :
    readRequire x ts = some (ss, r) ↔ ∃ u, ts = u ++ r ∧ IsRequire x u ss := by
  constructor
  · intro h
    cases ts with
    | nil => cases h
    | cons t ts =>
      by_cases hb : t = .bracketOpen
      · subst hb
        obtain ⟨t, s, us, rest, rfl, h1, h2, rfl⟩ := (readNames_iff x _ ts ss r (Nat.le_refl _)).1 h
        exact ⟨.bracketOpen :: t :: us.flatten ++ [.bracketClose], by simp, .list h1 h2⟩
      · rw [readRequire_cons hb] at h
        obtain ⟨s, hs, h⟩ := Option.map_eq_some_iff.1 h
        cases h
        exact ⟨[t], rfl, .one ((constText_iff x t s).1 hs)⟩
  · rintro ⟨u, rfl, h⟩
    cases h with
    | one h =>
      rename_i t s
      change readRequire x (t :: r) = _
      rw [readRequire_cons (isConst_tok h).2.2.1, (constText_iff x t s).2 h]; rfl
    | list h1 h2 =>
      rename_i t s us ns
      exact (readNames_iff x _ _ _ r (Nat.le_refl _)).2 ⟨t, s, us, ns, by simp, h1, h2, rfl⟩

/-! ## Labels -/

theorem readLabel_other {x : Ext F} {ts : List (Tok F)} (h : ∀ r', ts ≠ .tag .Name :: r') :
    readLabel x ts = some (none, ts) := by
  unfold readLabel
  split
  · exact absurd rfl (h _)
  · rfl

theorem readLabel_iff (x : Ext F) (ts : List (Tok F)) (l : Option (List UInt8)) (r : List (Tok F)) :
    readLabel x ts = some (l, r) ↔ ∃ u, ts = u ++ r ∧ IsLabel x u r l := by
  by_cases hn : ∃ r', ts = .tag .Name :: r'
  · obtain ⟨r', rfl⟩ := hn
    constructor
    · intro h
      obtain ⟨p, hp, h⟩ := Option.map_eq_some_iff.1 h
      cases h
      obtain ⟨u, rfl, hu⟩ := (readStatic_iff x _ p.1 p.2).1 hp
      exact ⟨.tag .Name :: u, rfl, .some hu⟩
    · rintro ⟨u, he, h⟩
      cases h with
      | none h => exact absurd he.symm (h _)
      | some h =>
        injection he with _ he
        subst he
        change (readStatic x _).map _ = _
        have := (readStatic_iff x _ _ r).2 ⟨_, rfl, h⟩
        change readStatic x (List.append _ _) = _ at this
        rw [this]; rfl
  · have hn' : ∀ r', ts ≠ .tag .Name :: r' := fun r' h => hn ⟨r', h⟩
    rw [readLabel_other hn']
    constructor
    · intro h
      cases h
      exact ⟨[], rfl, .none hn'⟩
    · rintro ⟨u, rfl, h⟩
      cases h with
      | none h => rfl
      | some h => exact absurd rfl (hn' _)

/-! ## Unknown commands -/

theorem balanced_open (w : List (Tok F)) : Balanced (.curlyOpen :: w) ↔
    ∃ a c, w = a ++ .curlyClose :: c ∧ Balanced a ∧ Balanced c := by
  constructor
  · intro h
    generalize hz : Lex.Token.curlyOpen :: w = z at h
    cases h with
    | nil => cases hz
    | tok h1 h2 h3 => injection hz with hz _; exact absurd hz.symm h1
    | block h1 h2 =>
      rw [List.cons_append] at hz
      injection hz with _ hz
      exact ⟨_, _, hz, h1, h2⟩
  · rintro ⟨a, c, rfl, h1, h2⟩
    exact .block h1 h2

theorem balanced_close (w : List (Tok F)) : ¬ Balanced (.curlyClose :: w) := by
  intro h
  generalize hz : Lex.Token.curlyClose :: w = z at h
  cases h with
  | nil => cases hz
  | tok h1 h2 h3 => injection hz with hz _; exact absurd hz.symm h2
  | block h1 h2 => rw [List.cons_append] at hz; injection hz with hz; cases hz

theorem balanced_tok {t : Tok F} (h1 : t ≠ .curlyOpen) (h2 : t ≠ .curlyClose) (w : List (Tok F)) :
    Balanced (t :: w) ↔ Balanced w := by
  constructor
  · intro h
    generalize hz : t :: w = z at h
    cases h with
    | nil => cases hz
    | tok h1 h2 h3 => injection hz with _ hz; subst hz; exact h3
    | block h3 h4 => rw [List.cons_append] at hz; injection hz with hz; exact absurd hz h1
  · exact .tok h1 h2

/-- The rest of an unknown command within `n` blocks. -/
def RestN : Nat → List (Tok F) → Prop
  | 0, u => IsRest u
  | 1, u => ∃ b, u = b ++ [.curlyClose] ∧ Balanced b
  | n + 2, u => ∃ b v, u = b ++ .curlyClose :: v ∧ Balanced b ∧ RestN (n + 1) v

theorem restN_nil (n : Nat) : ¬ RestN n ([] : List (Tok F)) := by
  match n with
  | 0 =>
    intro h
    generalize hz : ([] : List (Tok F)) = z at h
    change IsRest z at h
    cases h <;> simp at hz
  | 1 => rintro ⟨b, h, -⟩; simp at h
  | n + 2 => rintro ⟨b, v, h, -⟩; simp at h

theorem isRest_open (u : List (Tok F)) : IsRest (.curlyOpen :: u) ↔ RestN 1 u := by
  constructor
  · intro h
    generalize hz : Lex.Token.curlyOpen :: u = z at h
    cases h with
    | semicolon h =>
      rename_i v
      cases v with
      | nil => simp at hz
      | cons t v =>
        injection hz with hz _
        subst hz
        exact absurd List.mem_cons_self h.1
    | block h hb =>
      rename_i v b
      cases v with
      | nil =>
        simp at hz
        exact ⟨b, hz, hb⟩
      | cons t v =>
        rw [List.cons_append, List.cons_append] at hz
        injection hz with hz _
        subst hz
        exact absurd List.mem_cons_self h.1
  · rintro ⟨b, rfl, hb⟩
    have : IsRest ([] ++ (.curlyOpen : Tok F) :: b ++ [.curlyClose]) := .block ⟨by simp, by simp, by simp⟩ hb
    simpa using this

theorem isRest_semicolon (u : List (Tok F)) : IsRest (.semicolon :: u) ↔ u = [] := by
  constructor
  · intro h
    generalize hz : Lex.Token.semicolon :: u = z at h
    cases h with
    | semicolon h =>
      rename_i v
      cases v with
      | nil => simpa using hz
      | cons t v =>
        injection hz with hz _
        subst hz
        exact absurd List.mem_cons_self h.2.2
    | block h hb =>
      rename_i v b
      cases v with
      | nil => simp at hz
      | cons t v =>
        rw [List.cons_append, List.cons_append] at hz
        injection hz with hz _
        subst hz
        exact absurd List.mem_cons_self h.2.2
  · rintro rfl
    have : IsRest ([] ++ [(.semicolon : Tok F)]) := .semicolon ⟨by simp, by simp, by simp⟩
    exact this

theorem isRest_close (u : List (Tok F)) : ¬ IsRest (.curlyClose :: u) := by
  intro h
  generalize hz : Lex.Token.curlyClose :: u = z at h
  cases h with
  | semicolon h =>
    rename_i v
    cases v with
    | nil => simp at hz
    | cons t v =>
      injection hz with hz _
      subst hz
      exact absurd List.mem_cons_self h.2.1
  | block h hb =>
    rename_i v b
    cases v with
    | nil => simp at hz
    | cons t v =>
      rw [List.cons_append, List.cons_append] at hz
      injection hz with hz _
      subst hz
      exact absurd List.mem_cons_self h.2.1

theorem flat_cons {t : Tok F} (h1 : t ≠ .curlyOpen) (h2 : t ≠ .curlyClose) (h3 : t ≠ .semicolon) (u : List (Tok F)) :
    Flat (t :: u) ↔ Flat u := by
  simp only [Flat, List.mem_cons, not_or]
  exact ⟨fun ⟨a, b, c⟩ => ⟨a.2, b.2, c.2⟩, fun ⟨a, b, c⟩ => ⟨⟨h1.symm, a⟩, ⟨h2.symm, b⟩, ⟨h3.symm, c⟩⟩⟩

theorem isRest_tok {t : Tok F} (h1 : t ≠ .curlyOpen) (h2 : t ≠ .curlyClose) (h3 : t ≠ .semicolon) (u : List (Tok F)) :
    IsRest (t :: u) ↔ IsRest u := by
  constructor
  · intro h
    generalize hz : t :: u = z at h
    cases h with
    | semicolon h =>
      rename_i v
      cases v with
      | nil => simp at hz; exact absurd hz.1 h3
      | cons t' v =>
        injection hz with hz hz'
        subst hz; subst hz'
        exact .semicolon ((flat_cons h1 h2 h3 v).1 h)
    | block h hb =>
      rename_i v b
      cases v with
      | nil => simp at hz; exact absurd hz.1 h1
      | cons t' v =>
        rw [List.cons_append, List.cons_append] at hz
        injection hz with hz hz'
        subst hz; subst hz'
        exact .block ((flat_cons h1 h2 h3 v).1 h) hb
  · intro h
    cases h with
    | semicolon h => exact .semicolon (u := t :: _) ((flat_cons h1 h2 h3 _).2 h)
    | block h hb => exact .block (u := t :: _) ((flat_cons h1 h2 h3 _).2 h) hb

theorem restN_open (n : Nat) (u : List (Tok F)) : RestN n (.curlyOpen :: u) ↔ RestN (n + 1) u := by
  match n with
  | 0 => exact isRest_open u
  | 1 =>
    constructor
    · rintro ⟨b, he, hb⟩
      cases b with
      | nil => simp at he
      | cons t b =>
        injection he with he he'
        subst he
        obtain ⟨a, c, rfl, ha, hc⟩ := (balanced_open b).1 hb
        exact ⟨a, c ++ [.curlyClose], by rw [he']; simp, ha, c, rfl, hc⟩
    · rintro ⟨a, v, rfl, ha, c, rfl, hc⟩
      exact ⟨.curlyOpen :: a ++ .curlyClose :: c, by simp, .block ha hc⟩
  | n + 2 =>
    constructor
    · rintro ⟨b, v, he, hb, hv⟩
      cases b with
      | nil => simp at he
      | cons t b =>
        injection he with he he'
        subst he
        obtain ⟨a, c, rfl, ha, hc⟩ := (balanced_open b).1 hb
        exact ⟨a, c ++ .curlyClose :: v, by rw [he']; simp, ha, c, v, rfl, hc, hv⟩
    · rintro ⟨a, v, rfl, ha, c, w, rfl, hc, hw⟩
      exact ⟨.curlyOpen :: a ++ .curlyClose :: c, w, by simp, .block ha hc, hw⟩

theorem restN_close_one (u : List (Tok F)) : RestN 1 (.curlyClose :: u) ↔ u = [] := by
  constructor
  · rintro ⟨b, he, hb⟩
    cases b with
    | nil => simpa using he
    | cons t b =>
      injection he with he _
      subst he
      exact absurd hb (balanced_close b)
  · rintro rfl
    exact ⟨[], rfl, .nil⟩

theorem restN_close (n : Nat) (u : List (Tok F)) : RestN (n + 2) (.curlyClose :: u) ↔ RestN (n + 1) u := by
  constructor
  · rintro ⟨b, v, he, hb, hv⟩
    cases b with
    | nil => simp at he; exact he ▸ hv
    | cons t b =>
      injection he with he _
      subst he
      exact absurd hb (balanced_close b)
  · intro h
    exact ⟨[], u, rfl, .nil, h⟩

theorem restN_tok {t : Tok F} (h1 : t ≠ .curlyOpen) (h2 : t ≠ .curlyClose) (n : Nat) (u : List (Tok F)) :
    RestN (n + 1) (t :: u) ↔ RestN (n + 1) u := by
  match n with
  | 0 =>
    constructor
    · rintro ⟨b, he, hb⟩
      cases b with
      | nil => simp at he; exact absurd he.1 h2
      | cons t' b =>
        injection he with he he'
        subst he
        exact ⟨b, he', (balanced_tok h1 h2 b).1 hb⟩
    · rintro ⟨b, rfl, hb⟩
      exact ⟨t :: b, rfl, .tok h1 h2 hb⟩
  | n + 1 =>
    constructor
    · rintro ⟨b, v, he, hb, hv⟩
      cases b with
      | nil => simp at he; exact absurd he.1 h2
      | cons t' b =>
        injection he with he he'
        subst he
        exact ⟨b, v, he', (balanced_tok h1 h2 b).1 hb, hv⟩
    · rintro ⟨b, v, rfl, hb, hv⟩
      exact ⟨t :: b, v, rfl, .tok h1 h2 hb, hv⟩

theorem exists_tail {P : List (Tok F) → Prop} (hP : ¬ P []) (t : Tok F) (ts r : List (Tok F)) :
    (∃ u, t :: ts = u ++ r ∧ P u) ↔ ∃ u, ts = u ++ r ∧ P (t :: u) := by
  constructor
  · rintro ⟨u, he, hu⟩
    cases u with
    | nil => exact absurd hu hP
    | cons t' u =>
      injection he with he he'
      subst he
      exact ⟨u, he', hu⟩
  · rintro ⟨u, rfl, hu⟩
    exact ⟨t :: u, rfl, hu⟩

theorem skipCmd_tok {t : Tok F} (h1 : t ≠ .curlyOpen) (h2 : t ≠ .curlyClose) (h3 : t ≠ .semicolon) (n : Nat)
    (ts : List (Tok F)) : skipCmd n (t :: ts) = skipCmd n ts := by
  match n with
  | 0 => cases t <;> first | rfl | exact absurd rfl h1 | exact absurd rfl h2 | exact absurd rfl h3
  | 1 => cases t <;> first | rfl | exact absurd rfl h1 | exact absurd rfl h2 | exact absurd rfl h3
  | n + 2 => cases t <;> first | rfl | exact absurd rfl h1 | exact absurd rfl h2 | exact absurd rfl h3

theorem skipCmd_open (n : Nat) (ts : List (Tok F)) : skipCmd n (.curlyOpen :: ts) = skipCmd (n + 1) ts := by
  match n with
  | 0 => rfl
  | 1 => rfl
  | n + 2 => rfl

theorem skipCmd_semicolon (n : Nat) (ts : List (Tok F)) : skipCmd (n + 1) (.semicolon :: ts) = skipCmd (n + 1) ts := by
  match n with
  | 0 => rfl
  | n + 1 => rfl

theorem skipCmd_restN : ∀ (ts : List (Tok F)) (n : Nat) (r : List (Tok F)),
    skipCmd n ts = some r ↔ ∃ u, ts = u ++ r ∧ RestN n u
  | [], n, r => by
    constructor
    · intro h
      match n with
      | 0 => cases h
      | 1 => cases h
      | n + 2 => cases h
    · rintro ⟨u, he, hu⟩
      obtain ⟨rfl, -⟩ := List.append_eq_nil_iff.1 he.symm
      exact absurd hu (restN_nil n)
  | t :: ts, n, r => by
    rw [exists_tail (restN_nil n)]
    have same : ∀ m, (∀ u, RestN n (t :: u) ↔ RestN m u) → skipCmd n (t :: ts) = skipCmd m ts →
        (skipCmd n (t :: ts) = some r ↔ ∃ u, ts = u ++ r ∧ RestN n (t :: u)) := by
      intro m hm he
      rw [he, skipCmd_restN ts m r]
      exact exists_congr fun u => and_congr Iff.rfl (hm u).symm
    have done : (∀ u, RestN n (t :: u) ↔ u = []) → skipCmd n (t :: ts) = some ts →
        (skipCmd n (t :: ts) = some r ↔ ∃ u, ts = u ++ r ∧ RestN n (t :: u)) := by
      intro hm he
      rw [he]
      constructor
      · intro h; cases h; exact ⟨[], rfl, (hm _).2 rfl⟩
      · rintro ⟨u, rfl, hu⟩
        rw [(hm u).1 hu]; rfl
    by_cases h1 : t = .curlyOpen
    · subst h1; exact same (n + 1) (restN_open n) (skipCmd_open n ts)
    · by_cases h2 : t = .curlyClose
      · subst h2
        match n with
        | 0 =>
          constructor
          · intro h; cases h
          · rintro ⟨u, -, hu⟩; exact absurd hu (isRest_close u)
        | 1 => exact done restN_close_one rfl
        | n + 2 => exact same (n + 1) (restN_close n) rfl
      · by_cases h3 : t = .semicolon
        · subst h3
          match n with
          | 0 => exact done isRest_semicolon rfl
          | n + 1 => exact same (n + 1) (restN_tok h1 h2 n) (skipCmd_semicolon n ts)
        · match n with
          | 0 => exact same 0 (isRest_tok h1 h2 h3) (skipCmd_tok h1 h2 h3 0 ts)
          | n + 1 => exact same (n + 1) (restN_tok h1 h2 n) (skipCmd_tok h1 h2 h3 (n + 1) ts)

theorem skipCmd_iff (ts r : List (Tok F)) : skipCmd 0 ts = some r ↔ ∃ u, ts = u ++ r ∧ IsRest u := skipCmd_restN ts 0 r

/-! ## Unknown tests -/

/-- The rest of an unknown test within `n` parentheses. -/
structure TestRest (n : Nat) (u r : List (Tok F)) : Prop where
  brace : .curlyOpen ∉ u
  inside : ∀ a b, u = a ++ b → pcloses a ≤ popens a + n
  comma : ∀ a b, u = a ++ .comma :: b → pcloses a < popens a + n
  stop : r = [] ∨ (∃ r', r = .curlyOpen :: r') ∨
    (pcloses u = popens u + n ∧ ∃ r', r = .parenClose :: r' ∨ r = .comma :: r')

theorem testRest_iff (u r : List (Tok F)) : IsTestRest u r ↔ TestRest 0 u r :=
  ⟨fun ⟨a, b, c, d⟩ => ⟨a, b, c, d⟩, fun ⟨a, b, c, d⟩ => ⟨a, b, c, d⟩⟩

theorem testRest_nil {n : Nat} {r : List (Tok F)} (h : r = [] ∨ (∃ r', r = .curlyOpen :: r') ∨
    (n = 0 ∧ ∃ r', r = .parenClose :: r' ∨ r = .comma :: r')) : TestRest n [] r := by
  refine ⟨by simp, ?_, ?_, ?_⟩
  · intro a b e
    obtain ⟨rfl, -⟩ := List.append_eq_nil_iff.1 e.symm
    exact Nat.zero_le _
  · intro a b e; simp at e
  · refine h.imp id (Or.imp id ?_)
    rintro ⟨rfl, hr⟩
    exact ⟨rfl, hr⟩

theorem testRest_cons {t : Tok F} {n m : Nat} {u r : List (Tok F)} (hb : t ≠ .curlyOpen) (hc : t = .comma → 0 < n)
    (hp : pcloses [t] ≤ n) (he : n + popens [t] = m + pcloses [t]) : TestRest n (t :: u) r ↔ TestRest m u r := by
  have o : ∀ a, popens (t :: a) = popens [t] + popens a := fun a => List.countP_append (l₁ := [t])
  have c : ∀ a, pcloses (t :: a) = pcloses [t] + pcloses a := fun a => List.countP_append (l₁ := [t])
  constructor
  · rintro ⟨h1, h2, h3, h4⟩
    refine ⟨fun h => h1 (List.mem_cons_of_mem _ h), ?_, ?_, ?_⟩
    · intro a b e
      have := h2 (t :: a) b (by rw [e]; rfl)
      rw [o, c] at this; omega
    · intro a b e
      have := h3 (t :: a) b (by rw [e]; rfl)
      rw [o, c] at this; omega
    · refine h4.imp id (Or.imp id ?_)
      rintro ⟨h, h'⟩
      rw [o, c] at h
      exact ⟨by omega, h'⟩
  · rintro ⟨h1, h2, h3, h4⟩
    refine ⟨?_, ?_, ?_, ?_⟩
    · intro h
      rcases List.mem_cons.1 h with h | h
      · exact hb h.symm
      · exact h1 h
    · intro a b e
      cases a with
      | nil => exact Nat.zero_le _
      | cons t' a =>
        injection e with e e'
        subst e
        have := h2 a b e'
        rw [o, c]; omega
    · intro a b e
      cases a with
      | nil =>
        injection e with e e'
        have := hc e
        change 0 < 0 + n
        omega
      | cons t' a =>
        injection e with e e'
        subst e
        have := h3 a b e'
        rw [o, c]; omega
    · refine h4.imp id (Or.imp id ?_)
      rintro ⟨h, h'⟩
      rw [o, c]
      exact ⟨by omega, h'⟩

theorem skipTest_open (n : Nat) (ts : List (Tok F)) : skipTest n (.parenOpen :: ts) = skipTest (n + 1) ts := by
  cases n <;> rfl

theorem skipTest_curly (n : Nat) (ts : List (Tok F)) : skipTest n (.curlyOpen :: ts) = .curlyOpen :: ts := by
  cases n <;> rfl

theorem skipTest_tok {t : Tok F} (h1 : t ≠ .parenOpen) (h2 : t ≠ .parenClose) (h3 : t ≠ .curlyOpen) (n : Nat)
    (h4 : t = .comma → 0 < n) (ts : List (Tok F)) : skipTest n (t :: ts) = skipTest n ts := by
  cases n with
  | zero =>
    cases t <;> first | rfl | exact absurd rfl h1 | exact absurd rfl h2 | exact absurd rfl h3 | exact absurd (h4 rfl) (by omega)
  | succ n => cases t <;> first | rfl | exact absurd rfl h1 | exact absurd rfl h2 | exact absurd rfl h3

/-- How the next token of an unknown test is treated. -/
theorem skipTest_cases (n : Nat) (t : Tok F) :
    (∀ ts r : List (Tok F), skipTest n (t :: ts) = t :: ts ∧ TestRest n [] (t :: ts) ∧ ∀ u, ¬ TestRest n (t :: u) r) ∨
      ∃ m, (∀ ts, skipTest n (t :: ts) = skipTest m ts) ∧ (∀ u r : List (Tok F), TestRest n (t :: u) r ↔ TestRest m u r) ∧
        ∀ r, ¬ TestRest n [] (t :: r) := by
  by_cases h1 : t = .parenOpen
  · subst h1
    refine .inr ⟨n + 1, skipTest_open n, fun u r => testRest_cons (by simp) (by simp) (Nat.zero_le _) rfl, ?_⟩
    intro r h; simpa using h.stop
  · by_cases h2 : t = .parenClose
    · subst h2
      cases n with
      | zero =>
        refine .inl fun ts r => ⟨rfl, testRest_nil (.inr (.inr ⟨rfl, ts, .inl rfl⟩)), fun u h => ?_⟩
        have := h.inside [.parenClose] u rfl
        simp [popens, pcloses] at this
      | succ n =>
        refine .inr ⟨n, fun _ => rfl, fun u r => testRest_cons (by simp) (by simp) (Nat.succ_le_succ (Nat.zero_le _)) rfl, ?_⟩
        intro r h
        rcases h.stop with h | ⟨r', h⟩ | ⟨h, -⟩
        · cases h
        · cases h
        · simp [pcloses, popens] at h
    · by_cases h3 : t = .curlyOpen
      · subst h3
        exact .inl fun ts r => ⟨skipTest_curly n ts, testRest_nil (.inr (.inl ⟨ts, rfl⟩)), fun u h => h.brace List.mem_cons_self⟩
      · have eo : popens [t] = 0 := by cases t <;> first | rfl | exact absurd rfl h1
        have ec : pcloses [t] = 0 := by cases t <;> first | rfl | exact absurd rfl h2
        by_cases h4 : t = .comma ∧ n = 0
        · obtain ⟨rfl, rfl⟩ := h4
          refine .inl fun ts r => ⟨rfl, testRest_nil (.inr (.inr ⟨rfl, ts, .inr rfl⟩)), fun u h => ?_⟩
          have := h.comma [] u rfl
          simp [popens, pcloses] at this
        · have hc : t = .comma → 0 < n := fun h => Nat.pos_of_ne_zero fun hn => h4 ⟨h, hn⟩
          refine .inr ⟨n, fun ts => skipTest_tok h1 h2 h3 n hc ts,
            fun u r => testRest_cons h3 hc (by omega) (by omega), ?_⟩
          intro r h
          rcases h.stop with h | ⟨r', h⟩ | ⟨hz, r', h | h⟩
          · cases h
          · injection h with h; exact h3 h
          · injection h with h; exact h2 h
          · injection h with h
            exact h4 ⟨h, by simpa [pcloses, popens] using hz.symm⟩

theorem skipTest_rest : ∀ (ts : List (Tok F)) (n : Nat) (r : List (Tok F)),
    skipTest n ts = r ↔ ∃ u, ts = u ++ r ∧ TestRest n u r
  | [], n, r => by
    have e : skipTest n ([] : List (Tok F)) = [] := by cases n <;> rfl
    rw [e]
    constructor
    · rintro rfl
      exact ⟨[], rfl, testRest_nil (.inl rfl)⟩
    · rintro ⟨u, he, -⟩
      exact (List.append_eq_nil_iff.1 he.symm).2.symm
  | t :: ts, n, r => by
    rcases skipTest_cases n t with h | ⟨m, h1, h2, h3⟩
    · obtain ⟨e1, e2, -⟩ := h ts r
      rw [e1]
      constructor
      · rintro rfl
        exact ⟨[], rfl, e2⟩
      · rintro ⟨u, he, hu⟩
        cases u with
        | nil => exact he
        | cons t' u =>
          injection he with he _
          subst he
          exact absurd hu ((h ts r).2.2 u)
    · rw [h1, skipTest_rest ts m r]
      constructor
      · rintro ⟨u, rfl, hu⟩
        exact ⟨t :: u, rfl, (h2 u r).2 hu⟩
      · rintro ⟨u, he, hu⟩
        cases u with
        | nil =>
          rw [List.nil_append] at he
          subst he
          exact absurd hu (h3 ts)
        | cons t' u =>
          injection he with he he'
          subst he
          exact ⟨u, he', (h2 u r).1 hu⟩

theorem skipTest_iff (ts r : List (Tok F)) : skipTest 0 ts = r ↔ ∃ u, ts = u ++ r ∧ IsTestRest u r := by
  rw [skipTest_rest]
  exact exists_congr fun u => and_congr Iff.rfl (testRest_iff u r).symm

end Sieve.Script
