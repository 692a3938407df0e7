import Verif.ScriptSpec

/-!
# Whole scripts: the capabilities of the open blocks

The lists of capabilities that `ScriptModel` keeps agree with what the nodes before a place declare.
-/

namespace Sieve.Script

open Sieve.Args

variable {F : Type}

theorem opens_append (a b : List (Node F)) : opens (a ++ b) = opens a + opens b := List.countP_append
theorem closes_append (a b : List (Node F)) : closes (a ++ b) = closes a + closes b := List.countP_append

theorem staysOpen_nil : StaysOpen ([] : List (Node F)) := by
  intro a b h
  obtain ⟨rfl, rfl⟩ := List.append_eq_nil_iff.1 h.symm
  exact Nat.le_refl _

theorem staysOpen_snoc (a : List (Node F)) (n : Node F) :
    StaysOpen (a ++ [n]) ↔ StaysOpen a ∧ closes (a ++ [n]) ≤ opens (a ++ [n]) := by
  constructor
  · intro h
    exact ⟨fun b c e => h b (c ++ [n]) (by rw [e, List.append_assoc]), h _ [] (List.append_nil _).symm⟩
  · rintro ⟨h1, h2⟩ b c e
    rcases List.eq_nil_or_concat c with rfl | ⟨c', m, rfl⟩
    · rw [List.append_nil] at e; rw [← e]; exact h2
    · rw [List.concat_eq_append, ← List.append_assoc] at e
      exact h1 b c' (List.append_inj' e rfl).1

theorem staysOpen_self {a : List (Node F)} (h : StaysOpen a) : closes a ≤ opens a := h a [] (List.append_nil a).symm

/-- Declared in a block that is still open after closing `k` blocks. -/
def DeclaredAt (k : Nat) (pre : List (Node F)) (c : Cap) : Prop :=
  ∃ before names after, pre = before ++ .require names :: after ∧ Names names c ∧ StaysOpen after ∧
    closes after + k ≤ opens after

theorem declaredAt_snoc (k : Nat) (pre : List (Node F)) (n : Node F) (c : Cap) : DeclaredAt k (pre ++ [n]) c ↔
    (k = 0 ∧ ∃ names, n = .require names ∧ Names names c) ∨
      ∃ before names after, pre = before ++ .require names :: after ∧ Names names c ∧ StaysOpen after ∧
        closes (after ++ [n]) + k ≤ opens (after ++ [n]) := by
  constructor
  · rintro ⟨before, names, after, he, hn, hs, hk⟩
    rcases List.eq_nil_or_concat after with rfl | ⟨a', m, rfl⟩
    · obtain ⟨rfl, h⟩ := List.append_inj' he rfl
      injection h with h
      refine .inl ⟨?_, names, h, hn⟩
      simpa [opens, closes] using hk
    · rw [List.concat_eq_append] at he hs hk
      rw [← List.cons_append, ← List.append_assoc] at he
      obtain ⟨rfl, h⟩ := List.append_inj' he rfl
      injection h with h
      subst h
      exact .inr ⟨before, names, a', rfl, hn, ((staysOpen_snoc _ _).1 hs).1, hk⟩
  · rintro (⟨rfl, names, rfl, hn⟩ | ⟨before, names, after, rfl, hn, hs, hk⟩)
    · exact ⟨pre, names, [], rfl, hn, staysOpen_nil, by simp [opens, closes]⟩
    · exact ⟨before, names, after ++ [n], by simp, hn, (staysOpen_snoc _ _).2 ⟨hs, by omega⟩, hk⟩

theorem declaredAt_neutral {n : Node F} (h1 : ∀ ns, n ≠ .require ns) (h2 : n ≠ .openB) (h3 : n ≠ .closeB) (k : Nat)
    (pre : List (Node F)) (c : Cap) : DeclaredAt k (pre ++ [n]) c ↔ DeclaredAt k pre c := by
  have e1 : opens [n] = 0 := by cases n <;> first | rfl | exact absurd rfl h2
  have e2 : closes [n] = 0 := by cases n <;> first | rfl | exact absurd rfl h3
  rw [declaredAt_snoc]
  constructor
  · rintro (⟨-, names, h, -⟩ | ⟨before, names, after, he, hn, hs, hk⟩)
    · exact absurd h (h1 _)
    · rw [closes_append, opens_append, e1, e2] at hk
      exact ⟨before, names, after, he, hn, hs, hk⟩
  · rintro ⟨before, names, after, he, hn, hs, hk⟩
    refine .inr ⟨before, names, after, he, hn, hs, ?_⟩
    rw [closes_append, opens_append, e1, e2]
    exact hk

theorem declaredAt_open (k : Nat) (pre : List (Node F)) (c : Cap) :
    DeclaredAt k (pre ++ [.openB]) c ↔ DeclaredAt (k - 1) pre c := by
  rw [declaredAt_snoc]
  constructor
  · rintro (⟨-, names, h, -⟩ | ⟨before, names, after, he, hn, hs, hk⟩)
    · cases h
    · have := staysOpen_self hs
      rw [closes_append, opens_append] at hk
      change closes after + 0 + k ≤ opens after + 1 at hk
      exact ⟨before, names, after, he, hn, hs, by omega⟩
  · rintro ⟨before, names, after, he, hn, hs, hk⟩
    refine .inr ⟨before, names, after, he, hn, hs, ?_⟩
    rw [closes_append, opens_append]
    change closes after + 0 + k ≤ opens after + 1
    omega

theorem declaredAt_close (k : Nat) (pre : List (Node F)) (c : Cap) :
    DeclaredAt k (pre ++ [.closeB]) c ↔ DeclaredAt (k + 1) pre c := by
  rw [declaredAt_snoc]
  constructor
  · rintro (⟨-, names, h, -⟩ | ⟨before, names, after, he, hn, hs, hk⟩)
    · cases h
    · rw [closes_append, opens_append] at hk
      change closes after + 1 + k ≤ opens after + 0 at hk
      exact ⟨before, names, after, he, hn, hs, by omega⟩
  · rintro ⟨before, names, after, he, hn, hs, hk⟩
    refine .inr ⟨before, names, after, he, hn, hs, ?_⟩
    rw [closes_append, opens_append]
    change closes after + 1 + k ≤ opens after + 0
    omega

theorem declaredAt_require (k : Nat) (pre : List (Node F)) (names : List (List UInt8)) (c : Cap) :
    DeclaredAt k (pre ++ [.require names]) c ↔ (k = 0 ∧ Names names c) ∨ DeclaredAt k pre c := by
  rw [declaredAt_snoc]
  constructor
  · rintro (⟨rfl, names, h, hn⟩ | ⟨before, names, after, he, hn, hs, hk⟩)
    · cases h; exact .inl ⟨rfl, hn⟩
    · rw [closes_append, opens_append] at hk
      change closes after + 0 + k ≤ opens after + 0 at hk
      exact .inr ⟨before, names, after, he, hn, hs, by omega⟩
  · rintro (⟨rfl, hn⟩ | ⟨before, names, after, he, hn, hs, hk⟩)
    · exact .inl ⟨rfl, names, rfl, hn⟩
    · refine .inr ⟨before, names, after, he, hn, hs, ?_⟩
      rw [closes_append, opens_append]
      change closes after + 0 + k ≤ opens after + 0
      omega

theorem declared_iff (x : Ext F) (pre : List (Node F)) (c : Cap) : declared x pre c = true ↔ Declared x pre c := by
  unfold declared
  classical
  exact decide_eq_true_iff

/-! ## `add_capability` -/

/-- In one of the blocks that stay after closing `k`. -/
def In (caps : List (List Cap)) (k : Nat) (c : Cap) : Prop := ∃ b ∈ caps.drop k, c ∈ b

theorem any_contains_iff (caps : List (List Cap)) (c : Cap) : (caps.any (·.contains c)) = true ↔ In caps 0 c := by
  simp [In, List.any_eq_true]

theorem hasCap_iff (x : Ext F) (caps : List (List Cap)) (c : Cap) :
    hasCap x caps c = true ↔ In caps 0 c ∨ (c ≠ .Ihave ∧ x.noCheck = true) := by
  unfold hasCap
  rw [Bool.or_eq_true, Bool.and_eq_true, any_contains_iff, decide_eq_true_eq]

/-- The state is relevant for `c`. -/
def Tracked (x : Ext F) (c : Cap) : Prop := x.noCheck = false ∨ c = .Ihave

theorem in_insert_zero {d : Cap} {caps : List (List Cap)} (h : caps ≠ []) (c : Cap) :
    In (insertCap d caps) 0 c ↔ c = d ∨ In caps 0 c := by
  cases caps with
  | nil => exact absurd rfl h
  | cons b bs => simp [In, insertCap, or_assoc]

theorem insert_drop (d : Cap) (caps : List (List Cap)) (k : Nat) : (insertCap d caps).drop (k + 1) = caps.drop (k + 1) := by
  cases caps <;> rfl

theorem insert_ne {d : Cap} {caps : List (List Cap)} (h : caps ≠ []) : insertCap d caps ≠ [] := by
  cases caps with
  | nil => exact absurd rfl h
  | cons b bs => simp [insertCap]

theorem insert_length (d : Cap) (caps : List (List Cap)) : (insertCap d caps).length = caps.length := by
  cases caps <;> rfl

/-- `spamtestplus` is never there without `spamtest`. -/
def Closed (x : Ext F) (caps : List (List Cap)) : Prop :=
  x.noCheck = false → In caps 0 .SpamTestPlus → In caps 0 .SpamTest

theorem addCap_spec (x : Ext F) {caps : List (List Cap)} (hne : caps ≠ []) (hcl : Closed x caps) (d : Cap) :
    (addCap x caps d).1 ≠ [] ∧ (addCap x caps d).1.length = caps.length ∧
      (∀ k, (addCap x caps d).1.drop (k + 1) = caps.drop (k + 1)) ∧
      ∀ c, Tracked x c → (In (addCap x caps d).1 0 c ↔ In caps 0 c ∨ c = d ∨ (d = .SpamTestPlus ∧ c = .SpamTest)) := by
  unfold addCap
  by_cases h : hasCap x caps d = true
  · rw [if_pos h]
    refine ⟨hne, rfl, fun _ => rfl, fun c hc => ⟨.inl, ?_⟩⟩
    rcases (hasCap_iff x caps d).1 h with hin | ⟨hd, hx⟩
    · rintro (h1 | rfl | ⟨rfl, rfl⟩)
      · exact h1
      · exact hin
      · rcases hc with hc | hc
        · exact hcl hc hin
        · cases hc
    · rcases hc with hc | rfl
      · rw [hc] at hx; cases hx
      · rintro (h1 | rfl | ⟨-, h⟩)
        · exact h1
        · exact absurd rfl hd
        · cases h
  · rw [if_neg h]
    by_cases h2 : d = .SpamTestPlus ∧ hasCap x (insertCap d caps) .SpamTest = false
    · simp only [if_pos h2]
      refine ⟨insert_ne (insert_ne hne), by rw [insert_length, insert_length], fun k => by rw [insert_drop, insert_drop], ?_⟩
      intro c _
      rw [in_insert_zero (insert_ne hne), in_insert_zero hne]
      have := h2.1
      constructor
      · rintro (rfl | rfl | h)
        · exact .inr (.inr ⟨this, rfl⟩)
        · exact .inr (.inl rfl)
        · exact .inl h
      · rintro (h | rfl | ⟨-, rfl⟩)
        · exact .inr (.inr h)
        · exact .inr (.inl rfl)
        · exact .inl rfl
    · simp only [if_neg h2]
      refine ⟨insert_ne hne, insert_length _ _, fun k => insert_drop _ _ _, ?_⟩
      intro c hc
      rw [in_insert_zero hne]
      constructor
      · rintro (h | h)
        · exact .inr (.inl h)
        · exact .inl h
      · rintro (h | h | ⟨rfl, rfl⟩)
        · exact .inr h
        · exact .inl h
        · have h3 : hasCap x (insertCap .SpamTestPlus caps) .SpamTest = true := by
            cases hh : hasCap x (insertCap .SpamTestPlus caps) .SpamTest with
            | true => rfl
            | false => exact absurd ⟨rfl, hh⟩ h2
          rcases (hasCap_iff _ _ _).1 h3 with h4 | ⟨-, h4⟩
          · exact (in_insert_zero hne _).1 h4
          · rcases hc with hc | hc
            · rw [hc] at h4; cases h4
            · cases hc

theorem addCap_closed (x : Ext F) {caps : List (List Cap)} (hne : caps ≠ []) (hcl : Closed x caps) (d : Cap) :
    Closed x (addCap x caps d).1 := by
  intro hx h
  obtain ⟨-, -, -, hs⟩ := addCap_spec x hne hcl d
  rw [hs _ (.inl hx)] at h ⊢
  rcases h with h | h | ⟨-, h⟩
  · exact .inl (hcl hx h)
  · exact .inr (.inr ⟨h.symm, rfl⟩)
  · cases h

theorem names_cons (n : List UInt8) (ns : List (List UInt8)) (c : Cap) :
    Names (n :: ns) c ↔ (c = parseCap n ∨ (parseCap n = .SpamTestPlus ∧ c = .SpamTest)) ∨ Names ns c := by
  unfold Names
  constructor
  · rintro ⟨m, hm, h⟩
    rcases List.mem_cons.1 hm with rfl | hm
    · exact .inl (h.imp Eq.symm id)
    · exact .inr ⟨m, hm, h⟩
  · rintro (h | ⟨m, hm, h⟩)
    · exact ⟨n, List.mem_cons_self, h.imp Eq.symm id⟩
    · exact ⟨m, List.mem_cons_of_mem _ hm, h⟩

theorem addCaps_spec (x : Ext F) : ∀ (names : List (List UInt8)) (caps : List (List Cap)), caps ≠ [] → Closed x caps →
    (addCaps x caps names).1 ≠ [] ∧ (addCaps x caps names).1.length = caps.length ∧ Closed x (addCaps x caps names).1 ∧
      (∀ k, (addCaps x caps names).1.drop (k + 1) = caps.drop (k + 1)) ∧
      ∀ c, Tracked x c → (In (addCaps x caps names).1 0 c ↔ In caps 0 c ∨ Names names c)
  | [], caps, hne, hcl => ⟨hne, rfl, hcl, fun _ => rfl, fun c _ => by simp [addCaps, Names]⟩
  | n :: ns, caps, hne, hcl => by
    obtain ⟨a1, a2, a3, a4⟩ := addCap_spec x hne hcl (parseCap n)
    obtain ⟨b1, b2, b3, b4, b5⟩ := addCaps_spec x ns _ a1 (addCap_closed x hne hcl (parseCap n))
    refine ⟨b1, b2.trans a2, b3, fun k => (b4 k).trans (a3 k), fun c hc => ?_⟩
    have := b5 c hc
    rw [a4 c hc] at this
    rw [names_cons, ← or_assoc]
    exact this

/-! ## The invariant -/

/-- The state after these nodes. -/
structure Fits (x : Ext F) (pre : List (Node F)) (s : St) : Prop where
  depth : s.caps.length + closes pre = opens pre + 1
  ne : s.caps ≠ []
  caps : ∀ k c, Tracked x c → (In s.caps k c ↔ DeclaredAt k pre c)
  includes : s.includes = pre.countP isInclude

theorem fits_start (x : Ext F) : Fits x ([] : List (Node F)) ⟨[[]], 0, false⟩ := by
  refine ⟨rfl, by simp, ?_, rfl⟩
  intro k c _
  constructor
  · rintro ⟨b, hb, hc⟩
    have := List.mem_of_mem_drop hb
    rw [List.mem_singleton] at this
    subst this; cases hc
  · rintro ⟨before, names, after, he, -⟩
    simp at he

theorem declaredAt_zero (x : Ext F) (pre : List (Node F)) (c : Cap) :
    Declared x pre c ↔ (x.noCheck = true ∧ c ≠ .Ihave) ∨ DeclaredAt 0 pre c := by
  unfold Declared DeclaredAt
  refine or_congr Iff.rfl ?_
  constructor
  · rintro ⟨b, n, a, h1, h2, h3⟩
    exact ⟨b, n, a, h1, h2, h3, staysOpen_self h3⟩
  · rintro ⟨b, n, a, h1, h2, h3, -⟩
    exact ⟨b, n, a, h1, h2, h3⟩

theorem fits_has {x : Ext F} {pre : List (Node F)} {s : St} (h : Fits x pre s) : hasCap x s.caps = declared x pre := by
  funext c
  have key : hasCap x s.caps c = true ↔ Declared x pre c := by
    rw [hasCap_iff, declaredAt_zero]
    by_cases hc : Tracked x c
    · rw [h.caps 0 c hc]
      constructor
      · rintro (h | ⟨h1, h2⟩)
        · exact .inr h
        · exact .inl ⟨h2, h1⟩
      · rintro (⟨h1, h2⟩ | h)
        · exact .inr ⟨h2, h1⟩
        · exact .inl h
    · have h1 : x.noCheck = true := by
        cases hx : x.noCheck with
        | true => rfl
        | false => exact absurd (.inl hx) hc
      have h2 : c ≠ .Ihave := fun h => hc (.inr h)
      exact ⟨fun _ => .inl ⟨h1, h2⟩, fun _ => .inr ⟨h2, h1⟩⟩
  unfold declared
  classical
  by_cases hd : Declared x pre c
  · rw [decide_eq_true hd]; exact key.2 hd
  · rw [decide_eq_false hd]
    exact Bool.eq_false_iff.2 fun h => hd (key.1 h)

theorem fits_closed {x : Ext F} {pre : List (Node F)} {s : St} (h : Fits x pre s) : Closed x s.caps := by
  intro hx hin
  rw [h.caps 0 _ (.inl hx)] at hin ⊢
  obtain ⟨b, n, a, h1, ⟨m, hm, hc⟩, h3⟩ := hin
  refine ⟨b, n, a, h1, ⟨m, hm, ?_⟩, h3⟩
  rcases hc with hc | ⟨-, hc⟩
  · exact .inr ⟨hc, rfl⟩
  · cases hc

theorem fits_neutral {x : Ext F} {pre : List (Node F)} {s : St} (h : Fits x pre s) {n : Node F} (h1 : ∀ ns, n ≠ .require ns)
    (h2 : n ≠ .openB) (h3 : n ≠ .closeB) (h4 : isInclude n = false) (t : Bool) :
    Fits x (pre ++ [n]) { s with inTest := t } := by
  have e1 : opens [n] = 0 := by cases n <;> first | rfl | exact absurd rfl h2
  have e2 : closes [n] = 0 := by cases n <;> first | rfl | exact absurd rfl h3
  refine ⟨?_, h.ne, fun k c hc => ?_, ?_⟩
  · rw [closes_append, opens_append, e1, e2]; exact h.depth
  · rw [declaredAt_neutral h1 h2 h3]; exact h.caps k c hc
  · rw [List.countP_append, List.countP_singleton, h4]; exact h.includes

theorem fits_include {x : Ext F} {pre : List (Node F)} {s : St} (h : Fits x pre s) {n : Node F} (h4 : isInclude n = true) :
    Fits x (pre ++ [n]) { s with includes := s.includes + 1 } := by
  have h1 : ∀ ns, n ≠ .require ns := by rintro ns rfl; cases h4
  have h2 : n ≠ .openB := by rintro rfl; cases h4
  have h3 : n ≠ .closeB := by rintro rfl; cases h4
  have e1 : opens [n] = 0 := by cases n <;> first | rfl | exact absurd rfl h2
  have e2 : closes [n] = 0 := by cases n <;> first | rfl | exact absurd rfl h3
  refine ⟨?_, h.ne, fun k c hc => ?_, ?_⟩
  · rw [closes_append, opens_append, e1, e2]; exact h.depth
  · rw [declaredAt_neutral h1 h2 h3]; exact h.caps k c hc
  · rw [List.countP_append, List.countP_singleton, h4]
    change s.includes + 1 = _
    rw [h.includes]; rfl

theorem fits_open {x : Ext F} {pre : List (Node F)} {s : St} (h : Fits x pre s) (t : Bool) :
    Fits x (pre ++ [.openB]) { s with caps := [] :: s.caps, inTest := t } := by
  refine ⟨?_, by simp, fun k c hc => ?_, ?_⟩
  · rw [closes_append, opens_append]
    have := h.depth
    change s.caps.length + 1 + (closes pre + 0) = opens pre + 1 + 1
    omega
  · rw [declaredAt_open, ← h.caps _ c hc]
    cases k with
    | zero => simp [In]
    | succ k => rfl
  · rw [List.countP_append]; exact h.includes

theorem fits_close {x : Ext F} {pre : List (Node F)} {s : St} (h : Fits x pre s) (hl : 1 < s.caps.length) :
    Fits x (pre ++ [.closeB]) { s with caps := s.caps.tail } := by
  refine ⟨?_, ?_, fun k c hc => ?_, ?_⟩
  · rw [closes_append, opens_append]
    have := h.depth
    change s.caps.tail.length + (closes pre + 1) = opens pre + 0 + 1
    rw [List.length_tail]; omega
  · intro he
    have : s.caps.tail.length = 0 := by rw [show s.caps.tail = [] from he]; rfl
    rw [List.length_tail] at this; omega
  · rw [declaredAt_close, ← h.caps _ c hc]
    simp [In, List.drop_tail]
  · rw [List.countP_append]; exact h.includes

theorem fits_require {x : Ext F} {pre : List (Node F)} {s : St} (h : Fits x pre s) (names : List (List UInt8)) :
    Fits x (pre ++ [.require names]) { s with caps := (addCaps x s.caps names).1 } := by
  obtain ⟨b1, b2, b3, b4, b5⟩ := addCaps_spec x names s.caps h.ne (fits_closed h)
  refine ⟨?_, b1, fun k c hc => ?_, ?_⟩
  · rw [closes_append, opens_append]
    have := h.depth
    change (addCaps x s.caps names).1.length + (closes pre + 0) = opens pre + 0 + 1
    omega
  · rw [declaredAt_require]
    cases k with
    | zero =>
      rw [b5 c hc, h.caps 0 c hc]
      constructor
      · rintro (h | h)
        · exact .inr h
        · exact .inl ⟨rfl, h⟩
      · rintro (⟨-, h⟩ | h)
        · exact .inr h
        · exact .inl h
    | succ k =>
      have : In (addCaps x s.caps names).1 (k + 1) c ↔ In s.caps (k + 1) c := by unfold In; rw [b4]
      rw [show In ({ s with caps := (addCaps x s.caps names).1 } : St).caps (k + 1) c ↔ In s.caps (k + 1) c from this,
        h.caps _ c hc]
      constructor
      · exact .inr
      · rintro (⟨h, -⟩ | h)
        · cases h
        · exact h
  · rw [List.countP_append]; exact h.includes

end Sieve.Script
