import Verif.GlobLemmas
import Verif.GlobSpec
/-
From the positions found by the matcher to captured texts, and from compiled patterns back
to pattern strings.
-/
namespace Sieve.Glob

/-- Matching compiled items against a list of (compared, original) pairs, with one text per
wildcard item. -/
inductive KMatch : List PChar → List (Char × Char) → List (List (Char × Char)) → Prop
  | nil : KMatch [] [] []
  | char {ps vs ts} (x : Char × Char) : KMatch ps vs ts → KMatch (.char x.1 :: ps) (x :: vs) ts
  | single {ps vs ts} (x : Char × Char) :
      KMatch ps vs ts → KMatch (.single :: ps) (x :: vs) ([x] :: ts)
  | many {ps vs ts} (n : Nat) (w : List (Char × Char)) :
      KMatch ps vs ts → KMatch (.many n :: ps) (w ++ vs) (w :: ts)

/-- The texts of the wildcard items for given positions; `nx` is where the first item starts. -/
def texts (v : List (Char × Char)) : List PChar → List Nat → Nat → List (List (Char × Char))
  | .many _ :: ps, mp :: r, nx => (v.drop nx).take (mp - nx) :: texts v ps r mp
  | .single :: ps, mp :: r, _ => (v.drop mp).take 1 :: texts v ps r (mp + 1)
  | .char _ :: ps, mp :: r, _ => texts v ps r (mp + 1)
  | _, _, _ => []

theorem solveAt_kmatch (v : List (Char × Char)) (ps : List PChar) (nx : Nat) (r : List Nat)
    (hnx : nx ≤ v.length) (h : solveAt (v.map Prod.fst) ps nx = some r) :
    KMatch ps (v.drop nx) (texts v ps r nx) := by
  induction ps generalizing nx r with
  | nil =>
    simp only [solveAt, List.length_map] at h
    split at h
    · rw [List.drop_eq_nil_of_le (by omega)]; exact .nil
    · cases h
  | cons p ps ih =>
    match p with
    | .char c =>
      simp only [solveAt] at h
      split at h
      · rename_i hc
        simp only [List.getElem?_map, Option.map_eq_some_iff] at hc
        obtain ⟨x, hx, rfl⟩ := hc
        obtain ⟨hl, hx⟩ := List.getElem?_eq_some_iff.mp hx
        simp only [Option.map_eq_some_iff] at h
        obtain ⟨r', hr', rfl⟩ := h
        rw [List.drop_eq_getElem_cons hl, hx]
        exact .char x (ih (nx + 1) r' (by omega) hr')
      · cases h
    | .single =>
      simp only [solveAt, List.length_map] at h
      split at h
      · rename_i hl
        simp only [Option.map_eq_some_iff] at h
        obtain ⟨r', hr', rfl⟩ := h
        simp only [texts]
        have hd := List.drop_eq_getElem_cons hl
        have hd1 : (v.drop nx).take 1 = [v[nx]] := by rw [hd]; rfl
        rw [hd1, hd]
        exact KMatch.single v[nx] (ih (nx + 1) r' (by omega) hr')
      · cases h
    | .many n =>
      simp only [solveAt, List.length_map, search_eq_some, Option.map_eq_some_iff] at h
      obtain ⟨j, h1, h2, ⟨r', hr', rfl⟩, _⟩ := h
      have hsplit : v.drop nx = (v.drop nx).take (j - nx) ++ v.drop j := by
        conv_lhs => rw [← List.take_append_drop (j - nx) (v.drop nx)]
        rw [List.drop_drop, show nx + (j - nx) = j by omega]
      simp only [texts]
      conv_lhs => skip
      rw [show KMatch (PChar.many n :: ps) (v.drop nx) =
        KMatch (PChar.many n :: ps) ((v.drop nx).take (j - nx) ++ v.drop j) by rw [← hsplit]]
      exact .many n _ (ih j r' (by omega) hr')

/-- Any match is found by the search, with lexicographically smaller wildcard texts. -/
theorem kmatch_solveAt (v : List (Char × Char)) (ps : List PChar) (nx : Nat)
    (hnx : nx ≤ v.length) (ts : List (List (Char × Char))) (h : KMatch ps (v.drop nx) ts) :
    ∃ r, solveAt (v.map Prod.fst) ps nx = some r ∧
      lexLe ((texts v ps r nx).map List.length) (ts.map List.length) := by
  induction ps generalizing nx ts with
  | nil =>
    generalize hd : v.drop nx = d at h
    cases h
    have hge : v.length ≤ nx := by simpa using hd
    exact ⟨[], by simp [solveAt, hge], trivial⟩
  | cons p ps ih =>
    generalize hd : v.drop nx = d at h
    cases h with
    | char x h' =>
      rename_i vs
      have hl : nx < v.length := by
        by_contra hc
        rw [List.drop_eq_nil_of_le (by omega)] at hd
        cases hd
      rw [List.drop_eq_getElem_cons hl] at hd
      simp only [List.cons.injEq] at hd
      obtain ⟨hx, hvs⟩ := hd
      rw [← hvs] at h'
      obtain ⟨r, hr1, hr2⟩ := ih (nx + 1) (by omega) ts h'
      refine ⟨nx :: r, ?_, ?_⟩
      · simp only [solveAt]
        rw [if_pos (by simp [hl, hx]), hr1]; rfl
      · simpa [texts] using hr2
    | single x h' =>
      rename_i vs ts'
      have hl : nx < v.length := by
        by_contra hc
        rw [List.drop_eq_nil_of_le (by omega)] at hd
        cases hd
      rw [List.drop_eq_getElem_cons hl] at hd
      simp only [List.cons.injEq] at hd
      obtain ⟨hx, hvs⟩ := hd
      rw [← hvs] at h'
      obtain ⟨r, hr1, hr2⟩ := ih (nx + 1) (by omega) ts' h'
      refine ⟨nx :: r, ?_, ?_⟩
      · simp only [solveAt]
        rw [if_pos (by simpa using hl), hr1]; rfl
      · simp only [texts, List.map_cons]
        refine Or.inr ⟨?_, hr2⟩
        simp; omega
    | many n w h' =>
      rename_i vs ts'
      -- the given match cuts at nx + w.length
      have hwl : nx + w.length ≤ v.length := by
        have := congrArg List.length hd
        simp at this; omega
      have hvs : v.drop (nx + w.length) = vs := by
        rw [← List.drop_drop, hd]; simp
      rw [← hvs] at h'
      obtain ⟨r, hr1, hr2⟩ := ih (nx + w.length) hwl ts' h'
      -- least cut
      have hex : search (fun k => (solveAt (v.map Prod.fst) ps k).map (k :: ·)) nx
          ((v.map Prod.fst).length + 1 - nx) ≠ none := by
        rw [Ne, search_eq_none]
        intro hall
        have := hall (nx + w.length) (by omega) (by simp; omega)
        rw [hr1] at this; cases this
      obtain ⟨r0, hr0⟩ := Option.ne_none_iff_exists'.mp hex
      refine ⟨r0, hr0, ?_⟩
      rw [search_eq_some] at hr0
      obtain ⟨j, h1, h2, h3, h4⟩ := hr0
      simp only [Option.map_eq_some_iff] at h3
      obtain ⟨r1, hr1', rfl⟩ := h3
      simp only [List.length_map] at h2
      have hj : j ≤ nx + w.length := by
        by_contra hc
        have := h4 (nx + w.length) (by omega) (by omega)
        rw [hr1] at this; cases this
      simp only [texts, List.map_cons]
      have hlen : ((v.drop nx).take (j - nx)).length = j - nx := by simp; omega
      rw [lexLe, hlen]
      by_cases hjeq : j = nx + w.length
      · right
        refine ⟨by omega, ?_⟩
        subst hjeq
        rw [hr1] at hr1'
        cases hr1'
        exact hr2
      · left; omega

theorem solveAt_length {v : List Char} {ps : List PChar} {nx : Nat} {r : List Nat}
    (h : solveAt v ps nx = some r) : r.length = ps.length := by
  induction ps generalizing nx r with
  | nil => simp only [solveAt] at h; split at h <;> cases h; rfl
  | cons p ps ih =>
    match p with
    | .char c =>
      simp only [solveAt] at h
      split at h
      · simp only [Option.map_eq_some_iff] at h
        obtain ⟨r', hr', rfl⟩ := h
        simp [ih hr']
      · cases h
    | .single =>
      simp only [solveAt] at h
      split at h
      · simp only [Option.map_eq_some_iff] at h
        obtain ⟨r', hr', rfl⟩ := h
        simp [ih hr']
      · cases h
    | .many n =>
      simp only [solveAt, search_eq_some, Option.map_eq_some_iff] at h
      obtain ⟨j, _, _, ⟨r', hr', rfl⟩, _⟩ := h
      simp [ih hr']

/-- Runs of `n` stars count as `n` wildcards, the last of which receives the text. -/
def expand {α} : List PChar → List (List α) → List (List α)
  | .many n :: ps, w :: ts => List.replicate (n - 1) [] ++ w :: expand ps ts
  | .single :: ps, w :: ts => w :: expand ps ts
  | .char _ :: ps, ts => expand ps ts
  | _, _ => []

/-- Adjacent stars have been merged. -/
def NoAdj : List PChar → Prop
  | .many _ :: .many _ :: _ => False
  | _ :: ps => NoAdj ps
  | [] => True

/-- Number of wildcards of a compiled pattern. -/
def wildcards : List PChar → Nat
  | .many n :: ps => (n - 1) + 1 + wildcards ps
  | .single :: ps => 1 + wildcards ps
  | .char _ :: ps => wildcards ps
  | [] => 0

theorem bit_lt (cp : Nat) {i : Nat} (h : i < 64) : bit cp i = cp.testBit i := by
  unfold bit; rw [Nat.mod_eq_of_lt h]

theorem numbered_replicate (cp i n : Nat) (ts : List (List Char)) (hi : i + n ≤ 64) :
    numbered cp i (List.replicate n [] ++ ts) = starRun cp i n ++ numbered cp (i + n) ts := by
  induction n generalizing i with
  | zero => simp [starRun]
  | succ n ih =>
    simp only [List.replicate_succ, List.cons_append, numbered, starRun,
      bit_lt cp (show i < 64 by omega)]
    rw [ih (i + 1) (by omega)]
    rw [show i + 1 + n = i + (n + 1) by omega, List.append_assoc]

theorem filterMap_orig (l : List (Char × Char)) (h : ∀ x ∈ l, x.2 ≠ replacement) :
    (l.filterMap fun x => if x.2 ≠ replacement then some x.2 else none) = l.map Prod.snd := by
  induction l with
  | nil => rfl
  | cons x xs ih =>
    have hx := h x (List.mem_cons_self ..)
    simp only [List.filterMap_cons, if_pos hx, List.map_cons]
    rw [ih (fun y hy => h y (List.mem_cons_of_mem _ hy))]

theorem rangeText_orig (v : List (Char × Char)) (h : ∀ x ∈ v, x.2 ≠ replacement) (a b : Nat) :
    rangeText v a b = ((v.drop a).take (b - a)).map Prod.snd := by
  refine filterMap_orig _ fun x hx => h x ?_
  exact List.mem_of_mem_drop (List.mem_of_mem_take hx)

/-- The extraction loop yields the numbered texts. -/
theorem extract_spec (v : List (Char × Char)) (hv : ∀ x ∈ v, x.2 ≠ replacement) (cp : Nat)
    (ps : List PChar) (r : List Nat) (nx last wp : Nat) (hnx : nx ≤ v.length)
    (h : solveAt (v.map Prod.fst) ps nx = some r) (hadj : NoAdj ps)
    (hw : wp + wildcards ps ≤ 64)
    (hlast : last = nx ∨ ∀ n ps', ps ≠ .many n :: ps') :
    extract v cp ps r last wp =
      some (numbered cp wp ((expand ps (texts v ps r nx)).map (List.map Prod.snd))) := by
  induction ps generalizing nx r last wp with
  | nil =>
    simp only [solveAt] at h
    split at h <;> cases h
    simp [extract, expand, numbered]
  | cons p ps ih =>
    match p with
    | .char c =>
      simp only [solveAt] at h
      split at h
      · rename_i hc
        simp only [List.getElem?_map, Option.map_eq_some_iff] at hc
        obtain ⟨x, hx, _⟩ := hc
        obtain ⟨hl, _⟩ := List.getElem?_eq_some_iff.mp hx
        simp only [Option.map_eq_some_iff] at h
        obtain ⟨r', hr', rfl⟩ := h
        simp only [wildcards] at hw
        simp only [extract, texts, expand]
        by_cases h63 : wp ≤ maxMatchVariables
        · rw [if_pos h63]
          exact ih r' (nx + 1) (nx + 1) wp (by omega) hr' (by simpa [NoAdj] using hadj) hw (Or.inl rfl)
        · rw [if_neg h63]
          have := ih r' (nx + 1) (nx + 1) wp (by omega) hr' (by simpa [NoAdj] using hadj) hw (Or.inl rfl)
          rw [← this]
          cases ps with
          | nil => cases r' <;> rfl
          | cons q qs =>
            cases r' with
            | nil => rfl
            | cons a as => simp [extract, h63]
      · cases h
    | .single =>
      simp only [solveAt, List.length_map] at h
      split at h
      · rename_i hl
        simp only [Option.map_eq_some_iff] at h
        obtain ⟨r', hr', rfl⟩ := h
        simp only [wildcards] at hw
        have h63 : wp ≤ maxMatchVariables := by unfold maxMatchVariables; omega
        have := ih r' (nx + 1) (nx + 1) (wp + 1) (by omega) hr' (by simpa [NoAdj] using hadj)
          (by omega) (Or.inl rfl)
        simp only [extract, if_pos h63, texts, expand,
          bit_lt cp (show wp < 64 by omega), List.map_cons, numbered]
        rw [this, List.getElem?_eq_getElem hl]
        have hne := hv v[nx] (List.getElem_mem hl)
        have hd : (v.drop nx).take 1 = [v[nx]] := by
          rw [List.drop_eq_getElem_cons hl]; rfl
        rw [hd]
        split
        · simp [hne]
        · simp
      · cases h
    | .many n =>
      simp only [solveAt, List.length_map, search_eq_some, Option.map_eq_some_iff] at h
      obtain ⟨j, h1, h2, ⟨r', hr', rfl⟩, _⟩ := h
      rcases hlast with rfl | hbad
      · simp only [wildcards] at hw
        have h63 : wp ≤ maxMatchVariables := by unfold maxMatchVariables; omega
        have hnoadj : NoAdj ps := by
          cases ps with
          | nil => trivial
          | cons q qs => cases q <;> simp_all [NoAdj]
        have hnext : ∀ m ps', ps ≠ .many m :: ps' := by
          intro m ps' heq
          subst heq
          simp [NoAdj] at hadj
        have := ih r' j (j + 1) (wp + (n - 1) + 1) (by omega) hr' hnoadj (by omega)
          (Or.inr hnext)
        simp only [extract, if_pos h63, texts, expand,
          bit_lt cp (show wp + (n - 1) < 64 by omega)]
        rw [this, if_pos (show last ≤ j ∧ j ≤ v.length by omega), rangeText_orig v hv]
        simp only [List.map_append, List.map_replicate, List.map_nil, List.map_cons]
        rw [numbered_replicate _ _ _ _ (by omega)]
        simp only [numbered]
        split <;> simp
      · exact absurd rfl (hbad n ps)

end Sieve.Glob
