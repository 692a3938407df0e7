import Verif.LexModel

/-!
# Lemmas about the lexer
-/

namespace Sieve.Lex

variable {W F : Type}

theorem lex_nil (x : Ext W F) (s : St) (h : s.mode = .none) : lex x s [] = ([], none) := by
  rw [lex.eq_def]; simp [h]

theorem lex_go (x : Ext W F) {s s' : St} {ch : UInt8} {rest : List UInt8} {k : Nat} {ts : List (Token W F)}
    (h : step x s ch rest = .go s' k ts) :
    lex x s (ch :: rest) = (ts ++ (lex x s' (rest.drop k)).1, (lex x s' (rest.drop k)).2) := by
  rw [lex.eq_def]; simp [h]

theorem lex_fail (x : Ext W F) {s : St} {ch : UInt8} {rest : List UInt8} {e : Err}
    (h : step x s ch rest = .fail e) : lex x s (ch :: rest) = ([], some e) := by
  rw [lex.eq_def]; simp [h]

/-- The state in which the lexer is after `p`, and the tokens it has returned; nothing if there was an error. -/
def final (x : Ext W F) (s : St) (p : List UInt8) : Option (St × List (Token W F)) :=
  match p with
  | [] => some (s, [])
  | ch :: rest =>
    match step x s ch rest with
    | .fail _ => none
    | .go s' skip toks => (final x s' (rest.drop skip)).map fun r => (r.1, toks ++ r.2)
termination_by p.length
decreasing_by simp; omega

theorem final_go (x : Ext W F) {s s' : St} {ch : UInt8} {rest : List UInt8} {k : Nat} {ts : List (Token W F)}
    (h : step x s ch rest = .go s' k ts) :
    final x s (ch :: rest) = (final x s' (rest.drop k)).map fun r => (r.1, ts ++ r.2) := by
  rw [final.eq_def]; simp [h]

theorem final_fail (x : Ext W F) {s : St} {ch : UInt8} {rest : List UInt8} {e : Err}
    (h : step x s ch rest = .fail e) : final x s (ch :: rest) = none := by
  rw [final.eq_def]; simp [h]

/-- Outside strings and comments the previous character does not matter. -/
theorem stepNone_last (x : Ext W F) (s : St) (l : UInt8) (ch : UInt8) (rest : List UInt8) (h : s.mode = .none) :
    step x s ch rest = step x { s with last := l } ch rest := by
  simp [step, h]

theorem lex_last (x : Ext W F) (s : St) (l : UInt8) (h : s.mode = .none) (r : List UInt8) :
    lex x s r = lex x { s with last := l } r := by
  cases r with
  | nil => rw [lex_nil x s h, lex_nil x _ (by exact h)]
  | cons ch rest =>
    rw [lex.eq_def, lex.eq_def x { s with last := l }]
    simp only [← stepNone_last x s l ch rest h]

/-- Characters that end a word without being looked at together with what follows. -/
def blank (c : UInt8) : Bool := c = 10 || c = 32 || c = 9 || c = 13

theorem step_blank (x : Ext W F) (s : St) (c : UInt8) (rest : List UInt8) (h : s.mode = .none) (hc : blank c) :
    step x s c rest = .go (reset { s with last := c }) 0 (current x s) := by
  simp only [blank, Bool.or_eq_true, decide_eq_true_eq] at hc
  have e : current x { s with last := c } = current x s := rfl
  rcases hc with ((rfl | rfl) | rfl) | rfl <;>
    (simp [step, h, stepNone, isLower, isUpper, isDigit, reset]; rfl)

theorem reset_mode (s : St) : (reset s).mode = s.mode := by unfold reset; split <;> rfl

theorem lex_blank (x : Ext W F) (s : St) (c : UInt8) (rest : List UInt8) (h : s.mode = .none) (hc : blank c) :
    lex x s (c :: rest) = (current x s ++ (lex x (reset s) rest).1, (lex x (reset s) rest).2) := by
  rw [lex_go x (step_blank x s c rest h hc)]
  have e : reset { s with last := c } = { reset s with last := c } := by
    unfold reset; split <;> rfl
  rw [e, ← lex_last x (reset s) c (by rw [reset_mode, h])]
  simp

/-! ## Comments -/

theorem lex_bracket (x : Ext W F) : ∀ (c : List UInt8) (b : List UInt8) (g : Bool) (l : UInt8) (rest : List UInt8),
    (∀ u v, l :: c ≠ u ++ 42 :: 47 :: v) →
    lex x ⟨b, g, l, .bracket⟩ (c ++ 42 :: 47 :: rest) = lex x ⟨b, g, 47, .none⟩ rest
  | [], b, g, l, rest, _ => by
    rw [List.nil_append, lex_go x (s' := ⟨b, g, 42, .bracket⟩) (k := 0) (ts := []) (by simp [step])]
    simp only [List.drop_zero, List.nil_append]
    rw [lex_go x (s' := ⟨b, g, 47, .none⟩) (k := 0) (ts := []) (by simp [step])]
    simp
  | ch :: c, b, g, l, rest, h => by
    have h1 : ¬ (ch = 47 ∧ l = 42) := by
      rintro ⟨rfl, rfl⟩
      exact h [] c rfl
    rw [List.cons_append, lex_go x (s' := ⟨b, g, ch, .bracket⟩) (k := 0) (ts := []) (by simp [step, h1])]
    simp only [List.drop_zero, List.nil_append]
    exact lex_bracket x c b g ch rest (fun u v e => h (l :: u) v (by rw [e]; rfl))

theorem lex_hash (x : Ext W F) : ∀ (c : List UInt8) (b : List UInt8) (g : Bool) (l : UInt8) (rest : List UInt8),
    10 ∉ c → lex x ⟨b, g, l, .hash⟩ (c ++ 10 :: rest) = lex x ⟨b, g, 10, .none⟩ rest
  | [], b, g, l, rest, _ => by
    rw [List.nil_append, lex_go x (s' := ⟨b, g, 10, .none⟩) (k := 0) (ts := []) (by simp [step])]
    simp
  | ch :: c, b, g, l, rest, h => by
    simp only [List.mem_cons, not_or] at h
    rw [List.cons_append, lex_go x (s' := ⟨b, g, ch, .hash⟩) (k := 0) (ts := [])
      (by simp [step, Ne.symm h.1])]
    simp only [List.drop_zero, List.nil_append]
    exact lex_hash x c b g ch rest h.2

theorem comment_here (x : Ext W F) (s : St) (h : s.mode = .none) (c rest : List UInt8)
    (hc : ∀ u v, c ≠ u ++ 42 :: 47 :: v) :
    lex x s (47 :: 42 :: (c ++ 42 :: 47 :: rest)) = lex x s (32 :: rest) := by
  rw [lex_blank x s 32 rest h (by decide)]
  rw [lex_go x (s' := { reset s with last := 0, mode := .bracket }) (k := 1) (ts := current x s)]
  · simp only [List.drop_succ_cons, List.drop_zero]
    have := lex_bracket x c (reset s).buf (reset s).isTag 0 rest (by
      intro u v e
      cases u with
      | nil => simp at e
      | cons a u =>
        simp only [List.cons_append, List.cons.injEq] at e
        exact hc u v e.2)
    have e2 : lex x (reset s) rest = lex x ⟨(reset s).buf, (reset s).isTag, 47, .none⟩ rest := by
      rw [lex_last x (reset s) 47 (by rw [reset_mode, h])]
      congr 1
      have := reset_mode s
      rw [h] at this
      cases hs : reset s
      simp_all
    rw [e2, ← this]
  · have e : current x { s with last := 47 } = current x s := rfl
    have e2 : ({ reset { s with last := 47 } with last := 0, mode := Mode.bracket } : St)
        = { reset s with last := 0, mode := .bracket } := by
      unfold reset; by_cases hb : s.buf.isEmpty <;> simp [hb]
    simp only [step, h]
    simp [stepNone, isLower, isUpper, isDigit, ← e2, h]; rfl

theorem hash_here (x : Ext W F) (s : St) (h : s.mode = .none) (c rest : List UInt8) (hc : 10 ∉ c) :
    lex x s (35 :: (c ++ 10 :: rest)) = lex x s (10 :: rest) := by
  rw [lex_blank x s 10 rest h (by decide)]
  rw [lex_go x (s' := { reset s with last := 35, mode := .hash }) (k := 0) (ts := current x s)]
  · simp only [List.drop_zero]
    have := lex_hash x c (reset s).buf (reset s).isTag 35 rest hc
    have e2 : lex x (reset s) rest = lex x ⟨(reset s).buf, (reset s).isTag, 10, .none⟩ rest := by
      rw [lex_last x (reset s) 10 (by rw [reset_mode, h])]
      congr 1
      have := reset_mode s
      rw [h] at this
      cases hs : reset s
      simp_all
    rw [e2, ← this]
  · have e : current x { s with last := 35 } = current x s := rfl
    have e2 : ({ reset { s with last := 35 } with mode := Mode.hash } : St)
        = { reset s with last := 35, mode := .hash } := by
      unfold reset; by_cases hb : s.buf.isEmpty <;> simp [hb]
    simp only [step, h]
    simp [stepNone, isLower, isUpper, isDigit, ← e2, h]; rfl

/-! ## Going on after a prefix -/

def alpha (c : UInt8) : Bool := isLower c || isUpper c

def NoSkip (o : Out W F) : Prop := ∀ s k ts, o = .go s k ts → k = 0

theorem noSkip_go (s : St) (ts : List (Token W F)) : NoSkip (Out.go s 0 ts) := by
  intro s k ts e; cases e; rfl

theorem noSkip_fail (e : Err) : NoSkip (Out.fail e : Out W F) := by
  intro s k ts e; cases e

theorem noSkip_ite {c : Prop} [Decidable c] {a b : Out W F} (ha : NoSkip a) (hb : NoSkip b) :
    NoSkip (if c then a else b) := by split <;> assumption

theorem stepDot_append (x : Ext W F) (s : St) (t : StrType) (e : List UInt8) (hm : s.mode ≠ .none)
    {s1 : St} {k : Nat} {ts : List (Token W F)} : ∀ rest, stepDot x s t rest = .go s1 k ts →
    (rest.drop k = [] ∧ s1.mode ≠ .none) ∨ (stepDot x s t (rest ++ e) = .go s1 k ts ∧ k ≤ rest.length)
  | [], h => by
    cases h
    exact .inl ⟨rfl, hm⟩
  | [b], h => by
    by_cases b10 : b = 10
    · subst b10
      refine .inr ⟨h, ?_⟩
      revert h
      simp only [stepDot, getString]
      split_ifs <;> intro e <;> cases e <;> simp
    · by_cases b46 : b = 46
      · subst b46
        refine .inr ⟨h, ?_⟩
        cases h; simp
      · have : stepDot x s t [b] = .go { push (push s 46) b with last := b } 1 [] := by
          unfold stepDot; split <;> simp_all
        rw [this] at h
        cases h
        exact .inl ⟨rfl, hm⟩
  | b :: b' :: bs, h => by
    refine .inr ?_
    by_cases b13 : b = 13 ∧ b' = 10
    · obtain ⟨rfl, rfl⟩ := b13
      refine ⟨h, ?_⟩
      revert h
      simp only [stepDot, getString]
      split_ifs <;> intro e <;> cases e <;> simp
    · by_cases b10 : b = 10
      · subst b10
        refine ⟨h, ?_⟩
        revert h
        simp only [stepDot, getString]
        split_ifs <;> intro e <;> cases e <;> simp
      · by_cases b46 : b = 46
        · subst b46
          refine ⟨h, ?_⟩
          cases h; simp
        · have : ∀ l, stepDot x s t (b :: b' :: l) = .go { push (push s 46) b with last := b } 1 [] := by
            intro l; unfold stepDot; split <;> simp_all
          rw [List.cons_append, List.cons_append, this]
          rw [this] at h
          cases h
          simp

theorem colon_append (x : Ext W F) (s : St) (rest : List UInt8) (a : UInt8) (r : List UInt8)
    (ha : alpha a = false) {s1 : St} {k : Nat} {ts : List (Token W F)} (h : stepNone x s 58 rest = .go s1 k ts) :
    (rest.drop k = [] ∧ s1.mode ≠ .none) ∨ (stepNone x s 58 (rest ++ a :: r) = .go s1 k ts ∧ k ≤ rest.length) := by
  have e : ∀ l, stepNone x s 58 l =
      if s.buf.isEmpty && (match l with | b :: _ => isLower b || isUpper b | [] => false) then
        .go { s with isTag := true } 0 []
      else if s.buf = [116, 101, 120, 116] then
        match l.dropWhile (· ≠ 10) with
        | [] => .go { s with mode := .multi {} } l.length []
        | _ :: _ => .go { buf := [], isTag := false, last := 10, mode := .multi {} }
            ((l.takeWhile (· ≠ 10)).length + 1) []
      else symbol x s .colon := by
    intro l
    unfold stepNone
    rw [if_neg (by decide), if_neg (by decide), if_pos rfl]
    rfl
  rw [e] at h ⊢
  cases rest with
  | nil =>
    simp only [Bool.and_false, Bool.false_eq_true, if_false, List.dropWhile_nil] at h
    have ha' : (isLower a || isUpper a) = false := ha
    simp only [List.nil_append, ha', Bool.and_false, Bool.false_eq_true, if_false]
    by_cases ht : s.buf = [116, 101, 120, 116]
    · simp only [ht, if_true] at h
      cases h
      exact .inl ⟨by simp, by simp⟩
    · simp only [ht, if_false] at h ⊢
      exact .inr ⟨h, by cases h; simp⟩
  | cons b bs =>
    simp only [List.cons_append] at h ⊢
    split at h
    · rename_i hc
      rw [if_pos hc]
      exact .inr ⟨h, by cases h; simp⟩
    · rename_i hc
      rw [if_neg hc]
      by_cases ht : s.buf = [116, 101, 120, 116]
      · simp only [ht, if_true] at h ⊢
        cases hd : (b :: bs).dropWhile (· ≠ 10) with
        | nil =>
          rw [hd] at h
          cases h
          exact .inl ⟨by simp, by simp⟩
        | cons y ys =>
          rw [hd] at h
          have e1 : (b :: (bs ++ a :: r)).dropWhile (· ≠ 10) = y :: (ys ++ a :: r) := by
            have := List.dropWhile_append (p := fun c : UInt8 => decide (c ≠ 10)) (xs := b :: bs) (ys := a :: r)
            rw [hd] at this
            simpa using this
          have e2 : (b :: (bs ++ a :: r)).takeWhile (· ≠ 10) = (b :: bs).takeWhile (· ≠ 10) := by
            have l1 : ((b :: bs).takeWhile (· ≠ 10)).length ≠ (b :: bs).length := by
              intro e
              have := congrArg List.length (List.takeWhile_append_dropWhile (p := fun c : UInt8 => decide (c ≠ 10)) (l := b :: bs))
              rw [hd] at this
              simp only [List.length_append] at this
              rw [e] at this
              simp at this
            have := List.takeWhile_append (p := fun c : UInt8 => decide (c ≠ 10)) (xs := b :: bs) (ys := a :: r)
            rw [if_neg l1] at this
            exact this
          rw [e1, e2]
          refine .inr ⟨h, ?_⟩
          injection h with h1 h2 h3
          have := congrArg List.length (List.takeWhile_append_dropWhile (p := fun c : UInt8 => decide (c ≠ 10)) (l := b :: bs))
          rw [hd] at this
          simp only [List.length_append, List.length_cons] at this ⊢
          rw [← h2]
          omega
      · simp only [ht, if_false] at h ⊢
        exact .inr ⟨h, by cases h; simp⟩

theorem stepNone_append (x : Ext W F) (s : St) (ch : UInt8) (rest : List UInt8) (a : UInt8) (r : List UInt8)
    (ha : alpha a = false) {s1 : St} {k : Nat} {ts : List (Token W F)} (h : stepNone x s ch rest = .go s1 k ts) :
    (rest.drop k = [] ∧ s1.mode ≠ .none) ∨ (stepNone x s ch (rest ++ a :: r) = .go s1 k ts ∧ k ≤ rest.length) := by
  by_cases h58 : ch = 58
  · subst h58
    exact colon_append x s rest a r ha h
  · by_cases h47 : ch = 47
    · subst h47
      have e : ∀ l, stepNone x s 47 l = match l with
          | 42 :: _ => .go { reset s with last := 0, mode := .bracket } 1 (current x s)
          | _ => .fail .invalidCharacter := fun l => rfl
      rw [e] at h ⊢
      cases rest with
      | nil => cases h
      | cons b bs =>
        by_cases hb : b = 42
        · subst hb
          refine .inr ⟨h, ?_⟩
          cases h; simp
        · split at h
          · rename_i e'
            simp at e'
            exact absurd e'.1 hb
          · cases h
    · refine .inr ?_
      unfold stepNone at h ⊢
      simp only [h58, h47, if_false] at h ⊢
      refine ⟨h, ?_⟩
      have z : NoSkip (Out.go s1 k ts : Out W F) := by
        rw [← h]
        unfold symbol
        repeat' first | exact noSkip_go _ _ | exact noSkip_fail _ | refine noSkip_ite ?_ ?_
      rw [z _ _ _ rfl]
      exact Nat.zero_le _

theorem step_append (x : Ext W F) (s : St) (ch : UInt8) (rest : List UInt8) (a : UInt8) (r : List UInt8)
    (ha : alpha a = false) {s1 : St} {k : Nat} {ts : List (Token W F)} (h : step x s ch rest = .go s1 k ts) :
    (rest.drop k = [] ∧ s1.mode ≠ .none) ∨ (step x s ch (rest ++ a :: r) = .go s1 k ts ∧ k ≤ rest.length) := by
  unfold step at h ⊢
  cases hm : s.mode with
  | bracket =>
    simp only [hm] at h ⊢
    exact .inr ⟨h, by cases h; simp⟩
  | hash =>
    simp only [hm] at h ⊢
    exact .inr ⟨h, by cases h; simp⟩
  | quoted t =>
    simp only [hm] at h ⊢
    refine .inr ⟨h, ?_⟩
    revert h
    unfold stepQuoted getString
    split_ifs <;> intro e <;> cases e <;> simp
  | none =>
    simp only [hm] at h ⊢
    exact stepNone_append x _ ch rest a r ha h
  | multi t =>
    simp only [hm] at h ⊢
    unfold stepMulti at h ⊢
    by_cases h46 : (ch = 46 && s.last = 10) = true
    · rw [if_pos h46] at h ⊢
      exact stepDot_append x _ t (a :: r) (by simp) rest h
    · rw [if_neg h46] at h ⊢
      refine .inr ⟨h, ?_⟩
      revert h
      split_ifs <;> intro e <;> cases e <;> simp

theorem final_nil (x : Ext W F) (s : St) : final x s [] = some (s, []) := by rw [final.eq_def]

/-- If the lexer is outside strings and comments after `p`, it goes on from there. -/
theorem lex_append (x : Ext W F) (a : UInt8) (r : List UInt8) (ha : alpha a = false) :
    ∀ (n : Nat) (p : List UInt8), p.length ≤ n → ∀ {s s' : St} {ts : List (Token W F)},
      final x s p = some (s', ts) → s'.mode = .none →
      lex x s (p ++ a :: r) = (ts ++ (lex x s' (a :: r)).1, (lex x s' (a :: r)).2)
  | 0, p, hn, s, s', ts, hf, hm => by
    rw [List.length_eq_zero_iff.1 (Nat.le_zero.1 hn), final_nil] at hf
    cases hf
    rw [List.length_eq_zero_iff.1 (Nat.le_zero.1 hn)]; simp
  | n + 1, [], hn, s, s', ts, hf, hm => by
    rw [final_nil] at hf
    cases hf
    simp
  | n + 1, ch :: rest, hn, s, s', ts, hf, hm => by
    cases hs : step x s ch rest with
    | fail e => rw [final_fail x hs] at hf; cases hf
    | go s1 k t1 =>
      rw [final_go x hs] at hf
      cases hf1 : final x s1 (rest.drop k) with
      | none => rw [hf1] at hf; cases hf
      | some q =>
        rw [hf1] at hf
        obtain ⟨q1, q2⟩ := q
        simp only [Option.map_some, Option.some.injEq, Prod.mk.injEq] at hf
        obtain ⟨rfl, rfl⟩ := hf
        rcases step_append x s ch rest a r ha hs with ⟨h1, h2⟩ | ⟨h1, h2⟩
        · rw [h1, final_nil] at hf1
          cases hf1
          exact absurd hm h2
        · rw [List.cons_append, lex_go x h1, List.drop_append_of_le_length h2]
          have := lex_append x a r ha n (rest.drop k) (by simp at hn ⊢; omega) hf1 hm
          rw [this, List.append_assoc]

end Sieve.Lex
