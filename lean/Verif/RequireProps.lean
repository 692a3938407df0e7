import Verif.ScriptProps

/-!
# C116: the extensions that an instruction `require` checks for

What `parse_require` leaves for the interpreter, which stops at the first extension of the list that is not allowed.
-/

namespace Sieve.Script

open Args Word

variable {F : Type}

/-- What a name stands for.  RFC 5235: `spamtestplus` brings `spamtest` with it. -/
def expand (n : List UInt8) : List Cap := if parseCap n = .SpamTestPlus then [.SpamTestPlus, .SpamTest] else [parseCap n]

theorem hasCap_insert (x : Ext F) {caps : List (List Cap)} (hne : caps ≠ []) (d c : Cap) :
    hasCap x (insertCap d caps) c = (hasCap x caps c || c == d) := by
  rw [Bool.eq_iff_iff, hasCap_iff, Bool.or_eq_true, hasCap_iff, in_insert_zero hne, beq_iff_eq]
  tauto

theorem closed_has {x : Ext F} {caps : List (List Cap)} (hcl : Closed x caps) (h : hasCap x caps .SpamTestPlus = true) :
    hasCap x caps .SpamTest = true := by
  rw [hasCap_iff] at h ⊢
  cases hx : x.noCheck with
  | true => exact .inr ⟨by decide, rfl⟩
  | false =>
    rcases h with h | ⟨-, h⟩
    · exact .inl (hcl hx h)
    · rw [hx] at h; cases h

/-- One name: the list gets what is not yet there, which is there afterwards. -/
theorem addCap_list (x : Ext F) {caps : List (List Cap)} (hne : caps ≠ []) (hcl : Closed x caps) (n : List UInt8) :
    (addCap x caps (parseCap n)).2 = (expand n).filter (fun c => !hasCap x caps c) ∧
    ∀ c, hasCap x (addCap x caps (parseCap n)).1 c = (hasCap x caps c || (expand n).contains c) := by
  unfold addCap expand
  by_cases h : hasCap x caps (parseCap n) = true
  · rw [if_pos h]
    by_cases hp : parseCap n = .SpamTestPlus
    · rw [hp] at h
      have h2 := closed_has hcl h
      rw [if_pos hp]
      refine ⟨by simp [h, h2], fun c => ?_⟩
      by_cases h3 : c = .SpamTestPlus
      · subst h3; simp [h]
      · by_cases h4 : c = .SpamTest
        · subst h4; simp [h2]
        · simp [h3, h4]
    · rw [if_neg hp]
      refine ⟨by simp [h], fun c => ?_⟩
      by_cases h3 : c = parseCap n
      · subst h3; simp [h]
      · simp [h3]
  · rw [if_neg h]
    simp only [Bool.not_eq_true] at h
    by_cases hp : parseCap n = .SpamTestPlus
    · rw [hp] at h ⊢
      rw [if_pos rfl]
      have hi : hasCap x (insertCap .SpamTestPlus caps) .SpamTest = hasCap x caps .SpamTest := by
        rw [hasCap_insert x hne]; simp
      simp only [hi]
      cases h2 : hasCap x caps .SpamTest with
      | false =>
        rw [if_pos ⟨trivial, rfl⟩]
        refine ⟨by simp [h, h2], fun c => ?_⟩
        simp only
        rw [hasCap_insert x (insert_ne hne), hasCap_insert x hne, List.contains_cons, List.contains_cons, List.contains_nil, Bool.or_false,
          Bool.or_assoc]
      | true =>
        rw [if_neg (by simp)]
        refine ⟨by simp [h, h2], fun c => ?_⟩
        simp only
        rw [hasCap_insert x hne]
        by_cases h4 : c = .SpamTest
        · subst h4; simp [h2]
        · rw [List.contains_cons, List.contains_cons, List.contains_nil, beq_false_of_ne h4, Bool.or_false, Bool.or_false]
    · rw [if_neg hp]
      rw [if_neg (fun k => hp k.1)]
      refine ⟨by simp [h], fun c => ?_⟩
      simp only
      rw [hasCap_insert x hne, List.contains_cons, List.contains_nil, Bool.or_false]

theorem expand_nodup (n : List UInt8) : (expand n).Nodup := by
  unfold expand
  split <;> simp

theorem eraseDups_nodup {α : Type} [BEq α] [LawfulBEq α] : ∀ {l : List α}, l.Nodup → l.eraseDups = l
  | [], _ => rfl
  | a :: l, h => by
    rw [List.nodup_cons] at h
    rw [List.eraseDups_cons]
    have : l.filter (fun b => !b == a) = l := List.filter_eq_self.2 fun b hb => by
      simp only [Bool.not_eq_true', beq_eq_false_iff_ne]
      rintro rfl
      exact h.1 hb
    rw [this, eraseDups_nodup h.2]

/-- **C116** The list of the instruction: the extensions named, in the order of their names and each once, without those that are already
declared. -/
theorem require_list (x : Ext F) : ∀ (names : List (List UInt8)) {caps : List (List Cap)}, caps ≠ [] → Closed x caps →
    (addCaps x caps names).2 = ((names.flatMap expand).filter fun c => !hasCap x caps c).eraseDups
  | [], _, _, _ => rfl
  | n :: ns, caps, hne, hcl => by
    obtain ⟨a1, a2⟩ := addCap_list x hne hcl n
    obtain ⟨b1, -, -, -⟩ := addCap_spec x hne hcl (parseCap n)
    have ih := require_list x ns b1 (addCap_closed x hne hcl (parseCap n))
    simp only [addCaps]
    rw [ih, a1, List.flatMap_cons, List.filter_append, List.eraseDups_append,
      eraseDups_nodup ((expand_nodup n).sublist List.filter_sublist)]
    congr 2
    unfold List.removeAll
    rw [List.filter_filter]
    refine List.filter_congr fun c _ => ?_
    rw [a2 c]
    cases h1 : hasCap x caps c <;> simp [h1]

/-- **C116** At any place of a script: `declared` is what the nodes before declare. -/
theorem require_at (x : Ext F) {pre : List (Node F)} {s : St} (h : Fits x pre s) (names : List (List UInt8)) :
    (addCaps x s.caps names).2 = ((names.flatMap expand).filter fun c => !declared x pre c).eraseDups := by
  rw [require_list x names h.ne (fits_closed h), fits_has h]

theorem find_eraseDups {α : Type} [BEq α] [LawfulBEq α] (p : α → Bool) : ∀ (m : Nat) (l : List α), l.length ≤ m →
    l.eraseDups.find? p = l.find? p
  | _, [], _ => rfl
  | m + 1, a :: l, h => by
    have hl : (l.filter (fun b => !b == a)).length ≤ m :=
      Nat.le_trans (List.length_filter_le _ _) (Nat.le_of_succ_le_succ h)
    rw [List.eraseDups_cons, List.find?_cons, List.find?_cons, find_eraseDups p m _ hl, List.find?_filter]
    cases hp : p a with
    | true => rfl
    | false =>
      simp only
      congr 1
      funext b
      by_cases hb : b = a
      · subst hb; simp [hp]
      · simp [hb]

/-- **C116** The extension that the interpreter reports (the first of the list that is not allowed): the first one named that is neither
declared before nor allowed. -/
theorem require_missing (x : Ext F) {pre : List (Node F)} {s : St} (h : Fits x pre s) (names : List (List UInt8)) (allowed : Cap → Bool) :
    (addCaps x s.caps names).2.find? (fun c => !allowed c) =
      (names.flatMap expand).find? fun c => !declared x pre c && !allowed c := by
  rw [require_at x h, find_eraseDups _ _ _ (Nat.le_refl _), List.find?_filter]
  congr 1
  funext c
  cases declared x pre c <;> cases allowed c <;> rfl

/-- `require ["imap4flags", "spamtestplus", "fileinto", "imap4flags"];` after `require "fileinto";` -/
example : (addCaps someExt [[.FileInto]] [bytes "imap4flags", bytes "spamtestplus", bytes "fileinto", bytes "imap4flags"]).2
    = [.Imap4Flags, .SpamTestPlus, .SpamTest] := by decide +kernel

end Sieve.Script
