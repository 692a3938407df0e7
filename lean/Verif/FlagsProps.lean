import Verif.Prelude
import Mathlib.Data.List.Perm.Basic
import Verif.SetProps
import Verif.FlagsModel
/-
C24, C25: flag variables.
-/
namespace Sieve.Flags
open Sieve Sieve.SetVar

/-! ### Splitting and joining -/

theorem splitSp_ne_nil (s : List Char) : splitSp s ≠ [] := by
  cases s with
  | nil => simp [splitSp]
  | cons c cs =>
    simp only [splitSp]
    split
    · simp
    · split <;> simp

theorem splitSp_no_space (s : List Char) : ∀ f ∈ splitSp s, ' ' ∉ f := by
  induction s with
  | nil => simp [splitSp]
  | cons c cs ih =>
    simp only [splitSp]
    split
    · intro f hf
      rcases List.mem_cons.mp hf with rfl | hf
      · simp
      · exact ih f hf
    · rename_i hc
      split
      · intro f hf
        rcases List.mem_cons.mp hf with rfl | hf
        · simp only [List.mem_cons, List.not_mem_nil, or_false]; exact fun h => hc h.symm
        · simp at hf
      · rename_i p ps heq
        rw [heq] at ih
        intro f hf
        rcases List.mem_cons.mp hf with rfl | hf
        · simp only [List.mem_cons, not_or]
          exact ⟨fun h => hc h.symm, ih p (List.mem_cons_self ..)⟩
        · exact ih f (List.mem_cons_of_mem _ hf)

theorem splitSp_noSpace {t : List Char} (h : ' ' ∉ t) : splitSp t = [t] := by
  induction t with
  | nil => rfl
  | cons c cs ih =>
    simp only [List.mem_cons, not_or] at h
    simp only [splitSp]
    rw [if_neg fun hc => h.1 hc.symm, ih h.2]

theorem splitSp_append (s t : List Char) : splitSp (s ++ ' ' :: t) = splitSp s ++ splitSp t := by
  induction s with
  | nil => simp [splitSp]
  | cons c cs ih =>
    simp only [List.cons_append, splitSp]
    split
    · rw [ih]; rfl
    · rw [ih]
      have := splitSp_ne_nil cs
      cases h : splitSp cs with
      | nil => exact absurd h this
      | cons p ps => rfl

theorem splitSp_joinSp {l : List (List Char)} (hl : l ≠ []) (h : ∀ f ∈ l, ' ' ∉ f) :
    splitSp (joinSp l) = l := by
  induction l with
  | nil => exact absurd rfl hl
  | cons p ps ih =>
    cases ps with
    | nil => exact splitSp_noSpace (h p (List.mem_cons_self ..))
    | cons q qs =>
      rw [joinSp, splitSp_append, splitSp_noSpace (h p (List.mem_cons_self ..)),
        ih (by simp) fun f hf => h f (List.mem_cons_of_mem _ hf)]
      · rfl
      · simp

theorem joinSp_splitSp (s : List Char) : joinSp (splitSp s) = s := by
  induction s with
  | nil => rfl
  | cons c cs ih =>
    simp only [splitSp]
    have := splitSp_ne_nil cs
    split
    · rename_i hc
      subst hc
      cases h : splitSp cs with
      | nil => exact absurd h this
      | cons p ps => rw [joinSp, ← h, ih]; rfl; simp
    · cases h : splitSp cs with
      | nil => exact absurd h this
      | cons p ps =>
        rw [h] at ih
        cases ps with
        | nil => simp only [joinSp] at ih ⊢; rw [ih]
        | cons q qs => simp only [joinSp, List.cons_append] at ih ⊢; rw [ih]

/-- Size of a flag list including separators. -/
def cost (l : List (List Char)) : Nat := (l.map fun f => byteLen f + 1).sum

theorem byteLen_joinSp {l : List (List Char)} (hl : l ≠ []) : byteLen (joinSp l) + 1 = cost l := by
  induction l with
  | nil => exact absurd rfl hl
  | cons p ps ih =>
    cases ps with
    | nil => simp [joinSp, cost]
    | cons q qs =>
      have := ih (by simp)
      rw [joinSp]
      · simp only [byteLen_append, byteLen_cons, cost, List.map_cons, List.sum_cons] at this ⊢
        have : ' '.utf8Size = 1 := by decide
        omega
      · simp

/-! ### Tokens -/

/-- The given list of flag strings is unproblematic: either it is a single string (whose words are
the flags), or every string is one non-blank word. -/
def CleanList (ws : Char → Bool) (strings : List (List Char)) : Prop :=
  strings.length = 1 ∨ ∀ s ∈ strings, s = [] ∨ (trim ws s ≠ [] ∧ ' ' ∉ trim ws s)

theorem splitWs_clean (cs cur : List Char) (hcur : ' ' ∉ cur) :
    ∀ t ∈ splitWs cur cs, t ≠ [] ∧ ' ' ∉ t := by
  induction cs generalizing cur with
  | nil =>
    simp only [splitWs]
    split
    · simp
    · rename_i h
      intro t ht
      simp only [List.mem_singleton] at ht
      subst ht
      exact ⟨h, hcur⟩
  | cons c cs ih =>
    simp only [splitWs]
    split
    · split
      · exact ih [] (by simp)
      · rename_i h
        intro t ht
        rcases List.mem_cons.mp ht with rfl | ht
        · exact ⟨h, hcur⟩
        · exact ih [] (by simp) t ht
    · rename_i hc
      refine ih _ ?_
      simp only [List.mem_append, List.mem_singleton, not_or]
      refine ⟨hcur, ?_⟩
      rintro rfl
      exact hc (by decide)

theorem tokens_clean {ws : Char → Bool} {strings : List (List Char)} (h : CleanList ws strings) :
    ∀ t ∈ tokens ws strings, t ≠ [] ∧ ' ' ∉ t := by
  intro t ht
  unfold tokens at ht
  split at ht
  · split at ht
    · simp at ht
    · exact splitWs_clean _ [] (by simp) t ht
  · rename_i hs
    simp only [List.mem_map, List.mem_filter, ne_eq, decide_eq_true_eq] at ht
    obtain ⟨s, ⟨hs1, hs2⟩, rfl⟩ := ht
    rcases h with h | h
    · match strings, h with
      | [s'], _ => exact absurd rfl (hs s')
    · rcases h s hs1 with h | h
      · exact absurd h hs2
      · exact h

theorem splitWs_word (w cur cs : List Char) (hw : ∀ c ∈ w, asciiWs c = false) :
    splitWs cur (w ++ cs) = splitWs (cur ++ w) cs := by
  induction w generalizing cur with
  | nil => simp
  | cons c w ih =>
    simp only [List.cons_append, splitWs, hw c (List.mem_cons_self ..), Bool.false_eq_true, if_false]
    rw [ih _ fun d hd => hw d (List.mem_cons_of_mem _ hd)]
    simp

/-- The flags named by a single string are its blank-separated words. -/
theorem tokens_single (ws : Char → Bool) (words : List (List Char))
    (hw : ∀ w ∈ words, w ≠ [] ∧ ∀ c ∈ w, asciiWs c = false) :
    tokens ws [joinSp words] = words := by
  have key : ∀ words : List (List Char), (∀ w ∈ words, w ≠ [] ∧ ∀ c ∈ w, asciiWs c = false) →
      splitWs [] (joinSp words) = words := by
    intro words
    induction words with
    | nil => intro _; rfl
    | cons p ps ih =>
      intro hw
      obtain ⟨hp, hp'⟩ := hw p (List.mem_cons_self ..)
      have ihh := ih fun w h => hw w (List.mem_cons_of_mem _ h)
      cases ps with
      | nil =>
        rw [joinSp]
        have := splitWs_word p [] [] hp'
        simp only [List.append_nil, List.nil_append] at this
        rw [this, splitWs, if_neg hp]
      | cons q qs =>
        rw [joinSp]
        · rw [splitWs_word p [] _ hp', List.nil_append, splitWs, if_pos (by decide), if_neg hp, ihh]
        · simp
  unfold tokens
  split
  · rename_i s heq
    simp only [List.cons.injEq, and_true] at heq
    subst heq
    split
    · rename_i h
      have hk := key words hw
      rw [h] at hk
      exact hk
    · exact key words hw
  · rename_i h; exact absurd rfl (h _)

theorem trim_id (ws : Char → Bool) (s : List Char)
    (h1 : ∀ c, s.head? = some c → ws c = false) (h2 : ∀ c, s.getLast? = some c → ws c = false) :
    trim ws s = s := by
  have hd : ∀ l : List Char, (∀ c, l.head? = some c → ws c = false) → l.dropWhile ws = l := by
    intro l hl
    cases l with
    | nil => rfl
    | cons c cs => rw [List.dropWhile_cons, hl c rfl]; rfl
  unfold trim
  rw [hd s h1, hd s.reverse (by simpa using h2), List.reverse_reverse]

/-- The flags named by a list of two or more words are these words. -/
theorem tokens_list (ws : Char → Bool) (strings : List (List Char)) (hlen : strings.length ≠ 1)
    (h : ∀ s ∈ strings, s ≠ [] ∧ (∀ c, s.head? = some c → ws c = false) ∧
      (∀ c, s.getLast? = some c → ws c = false)) :
    tokens ws strings = strings := by
  unfold tokens
  split
  · simp at hlen
  · rw [List.filter_eq_self.mpr fun s hs => by simpa using (h s hs).1]
    conv_rhs => rw [← List.map_id strings]
    exact List.map_congr_left fun s hs => trim_id ws s (h s hs).2.1 (h s hs).2.2

example : tokens asciiWs ["  a\tb ".toList] = ["a".toList, "b".toList] := by decide
example : tokens asciiWs ["a".toList, "".toList, " b ".toList] = ["a".toList, "b".toList] := by decide

/-! ### Set and add -/

/-- The same on lists of flags. -/
def addAbs (lower : List Char → List Char) (fl : List (List Char)) (t : List Char) :
    List (List Char) :=
  if lower t ∈ fl.map lower then fl else fl ++ [t]

theorem flagsOf_push {text t : List Char} (ht : t ≠ []) (hs : ' ' ∉ t) :
    flagsOf ((if text = [] then text else text ++ [' ']) ++ t) = flagsOf text ++ [t] := by
  unfold flagsOf
  by_cases h : text = []
  · subst h
    simp only [if_true, List.nil_append]
    rw [if_neg ht, splitSp_noSpace hs]
  · rw [if_neg h, if_neg h, if_neg (by simp), List.append_assoc, List.singleton_append,
      splitSp_append, splitSp_noSpace hs]

theorem fold_addTok (lower : List Char → List Char) (hlow : ∀ t, t ≠ [] → lower t ≠ lower [])
    (toks : List (List Char)) (hclean : ∀ t ∈ toks, t ≠ [] ∧ ' ' ∉ t)
    (st : List Char × List (List Char)) (junk : List (List Char))
    (hj : ∀ x ∈ junk, x = lower []) (hst : st.2 = junk ++ (flagsOf st.1).map lower) :
    flagsOf (toks.foldl (addTok lower) st).1 = toks.foldl (addAbs lower) (flagsOf st.1) := by
  induction toks generalizing st with
  | nil => rfl
  | cons t ts ih =>
    obtain ⟨ht, hs⟩ := hclean t (List.mem_cons_self ..)
    have hmem : lower t ∈ st.2 ↔ lower t ∈ (flagsOf st.1).map lower := by
      rw [hst, List.mem_append]
      constructor
      · rintro (h | h)
        · exact absurd (hj _ h) (hlow t ht)
        · exact h
      · exact Or.inr
    have hcl : ∀ t ∈ ts, t ≠ [] ∧ ' ' ∉ t := fun u hu => hclean u (List.mem_cons_of_mem _ hu)
    simp only [List.foldl_cons]
    by_cases hin : lower t ∈ st.2
    · rw [show addTok lower st t = st from if_pos hin,
        show addAbs lower (flagsOf st.1) t = flagsOf st.1 from if_pos (hmem.mp hin)]
      exact ih hcl st hst
    · have e1 : addTok lower st t =
          ((if st.1 = [] then st.1 else st.1 ++ [' ']) ++ t, st.2 ++ [lower t]) := if_neg hin
      rw [show addAbs lower (flagsOf st.1) t = flagsOf st.1 ++ [t] from
        if_neg fun h => hin (hmem.mpr h), e1]
      have e2 : flagsOf ((if st.1 = [] then st.1 else st.1 ++ [' ']) ++ t) = flagsOf st.1 ++ [t] :=
        flagsOf_push ht hs
      rw [← e2]
      exact ih hcl _ (by simp only [e2, hst]; simp)

theorem splitSp_flagsOf (lower : List Char → List Char) (old : List Char) :
    ∃ junk : List (List Char), (∀ x ∈ junk, x = lower []) ∧
      (splitSp old).map lower = junk ++ (flagsOf old).map lower := by
  unfold flagsOf
  split
  · rename_i h
    subst h
    exact ⟨[lower []], by simp, rfl⟩
  · exact ⟨[], by simp, rfl⟩

theorem addAbs_fold (lower : List Char → List Char) (toks fl : List (List Char)) :
    let r := toks.foldl (addAbs lower) fl
    fl <+: r ∧ ((fl.map lower).Nodup → (r.map lower).Nodup) ∧
    (∀ f ∈ r, f ∈ fl ∨ f ∈ toks) ∧ (∀ t ∈ toks, lower t ∈ r.map lower) := by
  induction toks generalizing fl with
  | nil => exact ⟨List.prefix_rfl, id, fun f h => Or.inl h, by simp⟩
  | cons t ts ih =>
    obtain ⟨h1, h2, h3, h4⟩ := ih (addAbs lower fl t)
    have hpre : fl <+: addAbs lower fl t := by
      unfold addAbs; split
      · exact List.prefix_rfl
      · exact List.prefix_append ..
    have hin : lower t ∈ (addAbs lower fl t).map lower := by
      unfold addAbs; split
      · assumption
      · simp
    simp only [List.foldl_cons]
    refine ⟨hpre.trans h1, fun h => h2 ?_, ?_, ?_⟩
    · unfold addAbs; split
      · exact h
      · rename_i hn
        rw [List.map_append, List.nodup_append]
        refine ⟨h, by simp, ?_⟩
        intro a ha b hb
        simp only [List.map_cons, List.map_nil, List.mem_singleton] at hb
        subst hb
        rintro rfl; exact hn ha
    · intro f hf
      rcases h3 f hf with h | h
      · unfold addAbs at h; split at h
        · exact Or.inl h
        · rcases List.mem_append.mp h with h | h
          · exact Or.inl h
          · rw [List.mem_singleton.mp h]; exact Or.inr (List.mem_cons_self ..)
      · exact Or.inr (List.mem_cons_of_mem _ h)
    · intro u hu
      rcases List.mem_cons.mp hu with rfl | hu
      · exact (h1.map lower).subset hin
      · exact h4 u hu

theorem addTok_len (lower : List Char → List Char) (toks : List (List Char)) (st) :
    byteLen (toks.foldl (addTok lower) st).1 ≤ byteLen st.1 + cost toks := by
  induction toks generalizing st with
  | nil => simp [cost]
  | cons t ts ih =>
    simp only [List.foldl_cons]
    refine le_trans (ih _) ?_
    have : byteLen (addTok lower st t).1 ≤ byteLen st.1 + (byteLen t + 1) := by
      unfold addTok
      split
      · omega
      · simp only [byteLen_append]
        split
        · omega
        · have : ' '.utf8Size = 1 := by decide
          simp only [byteLen_append, byteLen_cons, byteLen_nil]; omega
    simp only [cost, List.map_cons, List.sum_cons] at this ⊢
    omega

/-- The flags held by a variable. -/
def flags (v : Variable) : List (List Char) := flagsOf v.text

/-- No two flags equal ignoring case. -/
def Distinct (lower : List Char → List Char) (fl : List (List Char)) : Prop :=
  (fl.map lower).Nodup

theorem stored_fits {max : Nat} {s : List Char} (h : byteLen s ≤ max) :
    stored max (.str s) = .str s := (stored_any max (.str s)).2.1 h

/-- **C24** (setflag), partial: for a single flag string, or a list of single-word strings, whose
total size fits in a variable: the variable afterwards holds each given flag (ignoring case) exactly
once and nothing else. -/
theorem setflag_partial (lower : List Char → List Char) (hlow : ∀ t, t ≠ [] → lower t ≠ lower [])
    (ws : Char → Bool) (max : Nat) (old : List Char) (strings : List (List Char))
    (hclean : CleanList ws strings) (hfit : cost (tokens ws strings) ≤ max) :
    let new := flags (exec lower ws max .set old strings)
    Distinct lower new ∧ (∀ f ∈ new, f ∈ tokens ws strings) ∧
      ∀ t ∈ tokens ws strings, ∃ f ∈ new, lower f = lower t := by
  have hlen := addTok_len lower (tokens ws strings) ([], [])
  simp only [byteLen_nil, Nat.zero_add] at hlen
  have e : exec lower ws max .set old strings = .str (setFlags lower (tokens ws strings)) :=
    stored_fits (show byteLen (setFlags lower (tokens ws strings)) ≤ max from le_trans hlen hfit)
  rw [e]
  have hf := fold_addTok lower hlow _ (tokens_clean hclean) ([], []) [] (by simp) (by simp [flagsOf])
  have e2 : flags (.str (setFlags lower (tokens ws strings))) =
      (tokens ws strings).foldl (addAbs lower) [] := by
    unfold flags Variable.text setFlags; rw [hf]; rfl
  obtain ⟨_, h2, h3, h4⟩ := addAbs_fold lower (tokens ws strings) []
  simp only
  rw [e2]
  refine ⟨h2 (by simp), fun f hf => ?_, fun t ht => ?_⟩
  · rcases h3 f hf with h | h
    · simp at h
    · exact h
  · obtain ⟨f, hf, he⟩ := List.mem_map.mp (h4 t ht)
    exact ⟨f, hf, he⟩

theorem addFlags_flags (lower : List Char → List Char) (hlow : ∀ t, t ≠ [] → lower t ≠ lower [])
    (old : List Char) (toks : List (List Char)) (hclean : ∀ t ∈ toks, t ≠ [] ∧ ' ' ∉ t) :
    flagsOf (addFlags lower old toks) = toks.foldl (addAbs lower) (flagsOf old) := by
  obtain ⟨junk, hj, hs⟩ := splitSp_flagsOf lower old
  exact fold_addTok lower hlow toks hclean (old, (splitSp old).map lower) junk hj hs

/-- **C24** (addflag), partial: under the same conditions, addflag keeps the old flags in place,
adds each new flag once, keeps the variable free of duplicates, and repeating it changes nothing. -/
theorem addflag_partial (lower : List Char → List Char) (hlow : ∀ t, t ≠ [] → lower t ≠ lower [])
    (ws : Char → Bool) (max : Nat) (old : List Char) (strings : List (List Char))
    (hclean : CleanList ws strings) (hfit : byteLen old + cost (tokens ws strings) ≤ max) :
    let v := exec lower ws max .add old strings
    (flagsOf old <+: flags v) ∧
    (∀ f ∈ flags v, f ∈ flagsOf old ∨ f ∈ tokens ws strings) ∧
    (∀ t ∈ tokens ws strings, ∃ f ∈ flags v, lower f = lower t) ∧
    (Distinct lower (flagsOf old) → Distinct lower (flags v)) ∧
    exec lower ws max .add v.text strings = v := by
  have hlen := addTok_len lower (tokens ws strings) (old, (splitSp old).map lower)
  have hfit2 : byteLen (addFlags lower old (tokens ws strings)) ≤ max := by
    unfold addFlags; exact le_trans hlen hfit
  have e : exec lower ws max .add old strings = .str (addFlags lower old (tokens ws strings)) :=
    stored_fits hfit2
  simp only
  rw [e]
  have hf := addFlags_flags lower hlow old _ (tokens_clean hclean)
  obtain ⟨h1, h2, h3, h4⟩ := addAbs_fold lower (tokens ws strings) (flagsOf old)
  have e2 : flags (.str (addFlags lower old (tokens ws strings))) =
      (tokens ws strings).foldl (addAbs lower) (flagsOf old) := hf
  rw [e2]
  refine ⟨h1, h3, fun t ht => ?_, h2, ?_⟩
  · obtain ⟨f, hf, he⟩ := List.mem_map.mp (h4 t ht)
    exact ⟨f, hf, he⟩
  · set r := addFlags lower old (tokens ws strings) with hr
    have hid : ∀ (toks : List (List Char)) (st : List Char × List (List Char)),
        (∀ t ∈ toks, lower t ∈ st.2) → toks.foldl (addTok lower) st = st := by
      intro toks
      induction toks with
      | nil => intros; rfl
      | cons t ts ih =>
        intro st h
        rw [List.foldl_cons, show addTok lower st t = st from
          if_pos (h t (List.mem_cons_self ..))]
        exact ih st fun u hu => h u (List.mem_cons_of_mem _ hu)
    have e3 : addFlags lower r (tokens ws strings) = r := by
      unfold addFlags
      rw [hid]
      intro t ht
      obtain ⟨junk, _, hs⟩ := splitSp_flagsOf lower r
      show lower t ∈ (splitSp r).map lower
      rw [hs, List.mem_append, hf]
      exact Or.inr (h4 t ht)
    show stored max (.str (addFlags lower r (tokens ws strings))) = .str r
    rw [e3]
    exact stored_fits hfit2

/-- Lower-casing of ASCII letters, for the examples. -/
def demoLower (s : List Char) : List Char := s.map Char.toLower

theorem demoLower_ok : ∀ t, t ≠ [] → demoLower t ≠ demoLower [] := by
  intro t ht h
  cases t with
  | nil => exact ht rfl
  | cons c cs => simp [demoLower] at h

example : CleanList asciiWs ["\\Seen A a".toList] ∧
    cost (tokens asciiWs ["\\Seen A a".toList]) ≤ 100 ∧
    flagsOf (setFlags demoLower (tokens asciiWs ["\\Seen A a".toList])) =
      ["\\Seen".toList, "A".toList] := by
  exact ⟨Or.inl rfl, by decide, by decide⟩

example : flagsOf (addFlags demoLower "x y".toList (tokens asciiWs ["Y".toList, "z".toList])) =
    ["x".toList, "y".toList, "z".toList] := by decide

/-- The restriction to single words is necessary: `setflag ["a b", "a"]` stores the flag `a`
twice. -/
theorem setflag_list_duplicates :
    ∃ strings : List (List Char),
      ¬ Distinct demoLower (flags (exec demoLower asciiWs 100 .set [] strings)) := by
  refine ⟨[['a', ' ', 'b'], ['a']], ?_⟩
  have e : exec demoLower asciiWs 100 .set [] [['a', ' ', 'b'], ['a']] =
      .str ['a', ' ', 'b', ' ', 'a'] := stored_fits (by decide)
  rw [e]
  unfold Distinct
  decide

/-- The size restriction is necessary: truncation can turn a flag into a copy of another one. -/
theorem setflag_truncation_duplicates :
    ∃ s : List Char, ¬ Distinct demoLower (flags (exec demoLower asciiWs 3 .set [] [s])) := by
  refine ⟨['a', ' ', 'a', 'b'], ?_⟩
  have e : exec demoLower asciiWs 3 .set [] [['a', ' ', 'a', 'b']] = .str ['a', ' ', 'a'] := by
    show stored 3 (.str (setFlags demoLower (tokens asciiWs [['a', ' ', 'a', 'b']]))) = _
    rw [stored, if_pos (by decide)]
    exact congrArg _ (by decide)
  rw [e]
  unfold Distinct
  decide

/-! ### Remove -/

theorem swapRemove_perm {α : Type} (l : List α) (i : Nat) (h : i < l.length) :
    (swapRemove l i).Perm (l.eraseIdx i) := by
  obtain ⟨init, x, rfl⟩ := (List.eq_nil_or_concat l).resolve_left (by rintro rfl; simp at h)
  rw [List.concat_eq_append] at h ⊢
  unfold swapRemove
  simp only [List.getLast?_append, List.getLast?_singleton, Option.some_or]
  simp only [List.length_append, List.length_singleton] at h
  by_cases hi : i < init.length
  · rw [List.set_append_left _ _ hi, List.dropLast_concat, List.eraseIdx_append_of_lt_length hi]
    exact (List.set_perm_cons_eraseIdx hi x).trans
      (List.perm_append_comm (l₁ := [x]) (l₂ := init.eraseIdx i))
  · have : i = init.length := by omega
    subst this
    rw [List.set_append_right _ _ (le_refl _), List.eraseIdx_append_of_length_le (le_refl _)]
    simp

theorem swapRemove_map {α β : Type} (f : α → β) (l : List α) (i : Nat) :
    swapRemove (l.map f) i = (swapRemove l i).map f := by
  unfold swapRemove
  rw [List.getLast?_map]
  cases l.getLast? with
  | none => rfl
  | some x => simp [List.map_set, List.map_dropLast]

theorem removeTok_spec (lower : List Char → List Char) (fl : List (List Char)) (t : List Char)
    (hd : Distinct lower fl) :
    ∃ fl', removeTok lower (fl, fl.map lower) t = (fl', fl'.map lower) ∧ Distinct lower fl' ∧
      (∀ f, f ∈ fl' ↔ f ∈ fl ∧ lower f ≠ lower t) ∧ cost fl' ≤ cost fl := by
  unfold removeTok
  simp only
  cases h : (fl.map lower).findIdx? (· == lower t) with
  | none =>
    refine ⟨fl, rfl, hd, fun f => ⟨fun hf => ⟨hf, ?_⟩, fun hf => hf.1⟩, le_refl _⟩
    rw [List.findIdx?_eq_none_iff] at h
    have := h (lower f) (List.mem_map_of_mem hf)
    simpa using this
  | some i =>
    obtain ⟨hi, hp, _⟩ := List.findIdx?_eq_some_iff_getElem.mp h
    have hi' : i < fl.length := by simpa using hi
    have hlow : lower fl[i] = lower t := by simpa using hp
    have hperm := swapRemove_perm fl i hi'
    have hcons : (fl[i] :: swapRemove fl i).Perm fl :=
      (hperm.cons _).trans (List.getElem_cons_eraseIdx_perm hi')
    have hd2 : Distinct lower (fl[i] :: swapRemove fl i) :=
      (hcons.map lower).nodup_iff.mpr hd
    unfold Distinct at hd2
    rw [List.map_cons, List.nodup_cons] at hd2
    refine ⟨swapRemove fl i, by simp only [swapRemove_map], hd2.2, fun f => ?_, ?_⟩
    · rw [← hcons.mem_iff, List.mem_cons]
      constructor
      · intro hf
        refine ⟨Or.inr hf, fun heq => hd2.1 ?_⟩
        rw [hlow, ← heq]
        exact List.mem_map_of_mem hf
      · rintro ⟨rfl | hf, hne⟩
        · exact absurd hlow hne
        · exact hf
    · have := (hcons.map fun f => byteLen f + 1).sum_nat
      simp only [cost, List.map_cons, List.sum_cons] at this ⊢
      omega

theorem fold_removeTok (lower : List Char → List Char) (toks fl : List (List Char))
    (hd : Distinct lower fl) :
    ∃ fl', toks.foldl (removeTok lower) (fl, fl.map lower) = (fl', fl'.map lower) ∧
      (∀ f, f ∈ fl' ↔ f ∈ fl ∧ ∀ t ∈ toks, lower f ≠ lower t) ∧ cost fl' ≤ cost fl := by
  induction toks generalizing fl with
  | nil => exact ⟨fl, rfl, by simp, le_refl _⟩
  | cons t ts ih =>
    obtain ⟨fl1, h1, h2, h3, h4⟩ := removeTok_spec lower fl t hd
    obtain ⟨fl2, h5, h6, h7⟩ := ih fl1 h2
    refine ⟨fl2, by rw [List.foldl_cons, h1, h5], fun f => ?_, by omega⟩
    rw [h6, h3]
    simp only [List.mem_cons, forall_eq_or_imp]
    tauto

theorem mem_flagsOf_joinSp {l : List (List Char)} (h : ∀ f ∈ l, ' ' ∉ f) (f : List Char)
    (hf : f ≠ []) : f ∈ flagsOf (joinSp l) ↔ f ∈ l := by
  unfold flagsOf
  cases l with
  | nil => simp [joinSp]
  | cons p ps =>
    split
    · rename_i he
      have hs := splitSp_joinSp (l := p :: ps) (by simp) h
      rw [he] at hs
      simp only [splitSp] at hs
      rw [← hs]
      simp [hf]
    · rw [splitSp_joinSp (by simp) h]

/-- **C25**: after removeflag on a variable (within the size limit) without duplicate flags, a flag
is present exactly if it was present before and is not (ignoring case) one of the flags to remove. -/
theorem removeflag_exact (lower : List Char → List Char) (ws : Char → Bool) (max : Nat)
    (old : List Char) (strings : List (List Char)) (hd : Distinct lower (flagsOf old))
    (hfit : byteLen old ≤ max) :
    ∀ f, f ≠ [] → (f ∈ flags (exec lower ws max .remove old strings) ↔
      f ∈ flagsOf old ∧ ∀ t ∈ tokens ws strings, lower t ≠ lower f) := by
  have hds : Distinct lower (splitSp old) := by
    unfold flagsOf at hd
    split at hd
    · rename_i h; subst h; simp [splitSp, Distinct]
    · exact hd
  obtain ⟨fl', h1, h2, h3⟩ := fold_removeTok lower (tokens ws strings) (splitSp old) hds
  have hr : removeFlags lower old (tokens ws strings) = joinSp fl' := by
    unfold removeFlags; rw [h1]
  have hlen : byteLen (joinSp fl') ≤ max := by
    by_cases hnil : fl' = []
    · subst hnil; simp [joinSp]
    · have h4 := byteLen_joinSp hnil
      have h5 := byteLen_joinSp (splitSp_ne_nil old)
      rw [joinSp_splitSp] at h5
      omega
  have e : exec lower ws max .remove old strings = .str (joinSp fl') := by
    show stored max (.str (removeFlags lower old (tokens ws strings))) = _
    rw [hr]; exact stored_fits hlen
  intro f hf
  rw [e]
  show f ∈ flagsOf (joinSp fl') ↔ _
  rw [mem_flagsOf_joinSp (fun g hg => splitSp_no_space old g ((h2 g).mp hg).1) f hf, h2]
  have : f ∈ splitSp old ↔ f ∈ flagsOf old := by
    unfold flagsOf
    split
    · rename_i h; subst h; simp [splitSp, hf]
    · rfl
  rw [this]
  exact ⟨fun ⟨a, b⟩ => ⟨a, fun t ht h => b t ht h.symm⟩, fun ⟨a, b⟩ => ⟨a, fun t ht h => b t ht h.symm⟩⟩

example : Distinct demoLower (flagsOf "a b c".toList) ∧
    removeFlags demoLower "a b c".toList (tokens asciiWs ["A".toList]) = "c b".toList := by
  unfold Distinct
  decide

/-- Without that restriction only one copy is removed. -/
theorem removeflag_leaves_copy :
    ∃ f ∈ flags (exec demoLower asciiWs 100 .remove ['a', ' ', 'a'] [['a']]), f = ['a'] := by
  have e : exec demoLower asciiWs 100 .remove ['a', ' ', 'a'] [['a']] = .str ['a'] :=
    stored_fits (by decide)
  rw [e]
  exact ⟨['a'], by decide, rfl⟩

end Sieve.Flags
