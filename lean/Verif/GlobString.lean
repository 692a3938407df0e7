import Verif.GlobCapture
/-
Compiled patterns versus pattern strings.
-/
namespace Sieve.Glob

/-- Characters a literal is compiled to. -/
def foldLit (cm : CaseMap) (tl : Bool) (c : Char) : List Char :=
  if tl && cm.isUpper c then cm.lower c else [c]

theorem literal_eq (cm : CaseMap) (tl : Bool) (c : Char) :
    literal cm tl c = (foldLit cm tl c).map PChar.char := by
  unfold literal foldLit; split <;> rfl

/-- Literals on (compared, original) pairs. -/
def pairLit (cm : CaseMap) (tl : Bool) (c : Char) (w : List (Char × Char)) : Prop :=
  w.map Prod.fst = foldLit cm tl c

theorem kmatch_literal {cs : List Char} {ps : List PChar} {v ts}
    (h : KMatch (cs.map PChar.char ++ ps) v ts) :
    ∃ w v', v = w ++ v' ∧ w.map Prod.fst = cs ∧ KMatch ps v' ts := by
  induction cs generalizing v with
  | nil => exact ⟨[], v, rfl, rfl, h⟩
  | cons c cs ih =>
    simp only [List.map_cons, List.cons_append] at h
    cases h with
    | char x h' =>
      obtain ⟨w, v', rfl, hw, hk⟩ := ih h'
      exact ⟨x :: w, v', rfl, by simp [hw], hk⟩

theorem kmatch_literal' {w : List (Char × Char)} {ps : List PChar} {v ts}
    (h : KMatch ps v ts) : KMatch ((w.map Prod.fst).map PChar.char ++ ps) (w ++ v) ts := by
  induction w with
  | nil => exact h
  | cons x xs ih => exact .char x ih

theorem expand_literal {α} (cs : List Char) (ps : List PChar) (ts : List (List α)) :
    expand (cs.map PChar.char ++ ps) ts = expand ps ts := by
  induction cs with
  | nil => rfl
  | cons c cs ih => simpa [expand] using ih

theorem takeWhile_star (cs : List Char) :
    cs.takeWhile (· == '*') = List.replicate (cs.takeWhile (· == '*')).length '*' := by
  rw [List.eq_replicate_iff]
  refine ⟨rfl, fun b hb => ?_⟩
  have := List.all_takeWhile (p := (· == '*')) (l := cs)
  rw [List.all_eq_true] at this
  simpa using this b hb

theorem star_split (cs : List Char) :
    cs = List.replicate (cs.takeWhile (· == '*')).length '*' ++ cs.dropWhile (· == '*') := by
  rw [← takeWhile_star]; exact (List.takeWhile_append_dropWhile).symm

theorem mw_stars {α} {lit : Char → List α → Prop} {p v ts} (k : Nat)
    (h : MatchesWith lit p v ts) :
    MatchesWith lit (List.replicate k '*' ++ p) v (List.replicate k [] ++ ts) := by
  induction k with
  | zero => exact h
  | succ k ih => exact .star [] ih

theorem mw_stars_inv {α} {lit : Char → List α → Prop} {p v ts} (k : Nat)
    (h : MatchesWith lit (List.replicate k '*' ++ p) v ts) :
    ∃ ws v' ts', ws.length = k ∧ v = ws.flatten ++ v' ∧ ts = ws ++ ts' ∧
      MatchesWith lit p v' ts' := by
  induction k generalizing v ts with
  | zero => exact ⟨[], v, ts, rfl, rfl, rfl, h⟩
  | succ k ih =>
    simp only [List.replicate_succ, List.cons_append] at h
    generalize hq : '*' :: (List.replicate k '*' ++ p) = q at h
    cases h with
    | nil => cases hq
    | star w h' =>
      simp only [List.cons.injEq, true_and] at hq
      subst hq
      obtain ⟨ws, v', ts', h1, rfl, rfl, h4⟩ := ih h'
      exact ⟨w :: ws, v', ts', by simp [h1], by simp, by simp, h4⟩
    | quest => simp at hq
    | escaped => simp at hq
    | literal h1 => simp only [List.cons.injEq] at hq; exact absurd hq.1.symm h1
    | dangling => simp at hq

theorem compileGo_cons (cm : CaseMap) (tl esc : Bool) (c : Char) (cs : List Char) :
    compileGo cm tl esc (c :: cs) =
      if c = '*' ∧ esc = false then
        PChar.many (1 + (cs.takeWhile (· == '*')).length) ::
          compileGo cm tl false (cs.dropWhile (· == '*'))
      else if c = '?' ∧ esc = false then PChar.single :: compileGo cm tl false cs
      else if c = '\\' ∧ esc = false then compileGo cm tl true cs
      else literal cm tl c ++ compileGo cm tl false cs := by
  rw [compileGo]

theorem compileGo_nil (cm : CaseMap) (tl esc : Bool) : compileGo cm tl esc [] = [] := by
  rw [compileGo]

theorem dropWhile_len (cs : List Char) : (cs.dropWhile (· == '*')).length ≤ cs.length :=
  (List.dropWhile_suffix (l := cs) (· == '*')).length_le

theorem kmatch_mw (cm : CaseMap) (tl : Bool) (n : Nat) (p : List Char) (hn : p.length ≤ n) (v us)
    (h : KMatch (compileGo cm tl false p) v us) :
    MatchesWith (pairLit cm tl) p v (expand (compileGo cm tl false p) us) := by
  induction n generalizing p v us with
  | zero =>
    have : p = [] := List.length_eq_zero_iff.mp (by omega)
    subst this
    rw [compileGo_nil] at h ⊢
    cases h; exact .nil
  | succ n ih =>
    cases p with
    | nil =>
      rw [compileGo_nil] at h ⊢
      cases h; exact .nil
    | cons c cs =>
      simp only [List.length_cons] at hn
      rw [compileGo_cons] at h ⊢
      split at h
      next hc =>
        obtain ⟨rfl, _⟩ := hc
        rw [if_pos ⟨rfl, rfl⟩]
        cases h with
        | many _ w h' =>
          have hl := dropWhile_len cs
          have := ih _ (by omega) _ _ h'
          simp only [expand]
          have h2 := mw_stars (cs.takeWhile (· == '*')).length (MatchesWith.star w this)
          rw [show 1 + (cs.takeWhile (· == '*')).length - 1 = (cs.takeWhile (· == '*')).length by omega]
          have h3 : '*' :: cs = List.replicate (cs.takeWhile (· == '*')).length '*' ++
              '*' :: cs.dropWhile (· == '*') := by
            conv_lhs => rw [star_split cs]
            rw [← List.cons_append, ← List.replicate_succ, List.replicate_succ', List.append_assoc]
            rfl
          rw [h3]
          exact h2
      next hc1 =>
        rw [if_neg hc1]
        split at h
        next hc =>
          obtain ⟨rfl, _⟩ := hc
          rw [if_pos ⟨rfl, rfl⟩]
          cases h with
          | single x h' =>
            simp only [expand]
            exact .quest x (ih cs (by omega) _ _ h')
        next hc2 =>
          rw [if_neg hc2]
          split at h
          next hc =>
            obtain ⟨rfl, _⟩ := hc
            rw [if_pos ⟨rfl, rfl⟩]
            cases cs with
            | nil =>
              rw [compileGo_nil] at h ⊢
              cases h; exact .dangling
            | cons d ds =>
              rw [compileGo_cons] at h ⊢
              simp only [Bool.true_eq_false, and_false, if_false] at h ⊢
              rw [literal_eq] at h ⊢
              obtain ⟨w, v', rfl, hw, hk⟩ := kmatch_literal h
              rw [expand_literal]
              exact .escaped hw (ih ds (by simp at hn; omega) _ _ hk)
          next hc3 =>
            rw [if_neg hc3]
            rw [literal_eq] at h ⊢
            obtain ⟨w, v', rfl, hw, hk⟩ := kmatch_literal h
            rw [expand_literal]
            exact .literal (by simpa using hc1) (by simpa using hc2) (by simpa using hc3) hw
              (ih cs (by omega) _ _ hk)

theorem lexLe_refl : ∀ l, lexLe l l
  | [] => trivial
  | _ :: as => Or.inr ⟨rfl, lexLe_refl as⟩

theorem lexLe_stars (ws : List (List (Char × Char))) (k : Nat) (hk : ws.length = k + 1)
    (a b : List Nat) (hab : lexLe a b) :
    lexLe (List.replicate k 0 ++ ws.flatten.length :: a) (ws.map List.length ++ b) := by
  induction k generalizing ws with
  | zero =>
    match ws, hk with
    | [w], _ => exact Or.inr ⟨by simp, hab⟩
  | succ k ih =>
    match ws, hk with
    | w :: ws, hk =>
      simp only [List.replicate_succ, List.cons_append, List.map_cons]
      cases w with
      | nil =>
        exact Or.inr ⟨rfl, by simpa using ih ws (by simpa using hk)⟩
      | cons x xs => exact Or.inl (by simp)

theorem mw_kmatch (cm : CaseMap) (tl : Bool) (n : Nat) (p : List Char) (hn : p.length ≤ n) (v ts)
    (h : MatchesWith (pairLit cm tl) p v ts) :
    ∃ us, KMatch (compileGo cm tl false p) v us ∧
      lexLe ((expand (compileGo cm tl false p) us).map List.length) (ts.map List.length) := by
  induction n generalizing p v ts with
  | zero =>
    have : p = [] := List.length_eq_zero_iff.mp (by omega)
    subst this
    cases h
    rw [compileGo_nil]
    exact ⟨[], .nil, trivial⟩
  | succ n ih =>
    cases p with
    | nil =>
      cases h
      rw [compileGo_nil]
      exact ⟨[], .nil, trivial⟩
    | cons c cs =>
      simp only [List.length_cons] at hn
      rw [compileGo_cons]
      split
      next hc =>
        obtain ⟨rfl, _⟩ := hc
        have h3 : '*' :: cs = List.replicate ((cs.takeWhile (· == '*')).length + 1) '*' ++
            cs.dropWhile (· == '*') := by
          conv_lhs => rw [star_split cs]
          rw [← List.cons_append, ← List.replicate_succ]
        rw [h3] at h
        obtain ⟨ws, v', ts', h1, rfl, rfl, h4⟩ := mw_stars_inv _ h
        have hl := dropWhile_len cs
        obtain ⟨us, hu1, hu2⟩ := ih _ (by omega) _ _ h4
        refine ⟨ws.flatten :: us, .many _ _ hu1, ?_⟩
        simp only [expand, List.map_append, List.map_replicate, List.length_nil, List.map_cons]
        rw [show 1 + (cs.takeWhile (· == '*')).length - 1 = (cs.takeWhile (· == '*')).length by omega]
        exact lexLe_stars ws _ h1 _ _ hu2
      next hc1 =>
        split
        next hc =>
          obtain ⟨rfl, _⟩ := hc
          cases h with
          | quest x h' =>
            obtain ⟨us, hu1, hu2⟩ := ih cs (by omega) _ _ h'
            exact ⟨[x] :: us, .single x hu1, Or.inr ⟨rfl, hu2⟩⟩
          | literal _ h2 => exact absurd rfl h2
        next hc2 =>
          split
          next hc =>
            obtain ⟨rfl, _⟩ := hc
            cases h with
            | escaped hlit h' =>
              rename_i ds vs d w
              rw [compileGo_cons]
              simp only [Bool.true_eq_false, and_false, if_false]
              obtain ⟨us, hu1, hu2⟩ := ih ds (by simp at hn; omega) _ _ h'
              refine ⟨us, ?_, ?_⟩
              · rw [literal_eq, ← hlit]; exact kmatch_literal' hu1
              · rw [literal_eq, expand_literal]; exact hu2
            | literal _ _ h3 => exact absurd rfl h3
            | dangling =>
              rw [compileGo_nil]
              exact ⟨[], .nil, trivial⟩
          next hc3 =>
            cases h with
            | star => simp at hc1
            | quest => simp at hc2
            | escaped => simp at hc3
            | dangling => simp at hc3
            | literal _ _ _ hlit h' =>
              obtain ⟨us, hu1, hu2⟩ := ih cs (by omega) _ _ h'
              refine ⟨us, ?_, ?_⟩
              · rw [literal_eq, ← hlit]; exact kmatch_literal' hu1
              · rw [literal_eq, expand_literal]; exact hu2

theorem lexLe_trans : ∀ {a b c : List Nat}, lexLe a b → lexLe b c → lexLe a c
  | [], _, _, _, _ => trivial
  | _ :: _, [], _, h, _ => h.elim
  | _ :: _, _ :: _, [], _, h => h.elim
  | x :: xs, y :: ys, z :: zs, h1, h2 => by
    rcases h1 with h1 | ⟨rfl, h1⟩ <;> rcases h2 with h2 | ⟨rfl, h2⟩
    · exact Or.inl (by omega)
    · exact Or.inl h1
    · exact Or.inl h2
    · exact Or.inr ⟨rfl, lexLe_trans h1 h2⟩

theorem lexLe_append_left (l : List Nat) {a b : List Nat} (h : lexLe a b) :
    lexLe (l ++ a) (l ++ b) := by
  induction l with
  | nil => exact h
  | cons x xs ih => exact Or.inr ⟨rfl, ih⟩

/-- Expansion of runs preserves the comparison (both lists come from matches of `ps`). -/
theorem lexLe_expand (ps : List PChar) (v v' : List (Char × Char)) (us us' : List (List (Char × Char)))
    (h1 : KMatch ps v us) (h2 : KMatch ps v' us')
    (h : lexLe (us.map List.length) (us'.map List.length)) :
    lexLe ((expand ps us).map List.length) ((expand ps us').map List.length) := by
  induction ps generalizing v v' us us' with
  | nil => cases h1; trivial
  | cons p ps ih =>
    cases h1 with
    | char x h1' =>
      generalize hq : PChar.char x.1 :: ps = q at h2
      cases h2 with
      | char y h2' =>
        simp only [List.cons.injEq] at hq
        obtain ⟨-, rfl⟩ := hq
        simp only [expand]
        exact ih _ _ _ _ h1' h2' h
      | single => cases hq
      | many => cases hq
      | nil => cases hq
    | single x h1' =>
      cases h2 with
      | single y h2' =>
        rcases h with h | ⟨h, h'⟩
        · simp at h
        · exact Or.inr ⟨h, ih _ _ _ _ h1' h2' h'⟩
    | many n w h1' =>
      cases h2 with
      | many _ w' h2' =>
        simp only [expand, List.map_append, List.map_replicate, List.map_cons]
        refine lexLe_append_left _ ?_
        rcases h with h | ⟨h, h'⟩
        · exact Or.inl h
        · exact Or.inr ⟨h, ih _ _ _ _ h1' h2' h'⟩

/-- A compiled pattern starts with a star only if the pattern string does. -/
theorem compileGo_head (cm : CaseMap) (tl : Bool) (hcm : tl = true → ∀ c, cm.isUpper c = true → cm.lower c ≠ [])
    (esc : Bool) (c : Char) (cs : List Char) (hc : c ≠ '*' ∨ esc = true) (n ps) :
    compileGo cm tl esc (c :: cs) ≠ .many n :: ps := by
  have hlit : ∀ d ds, literal cm tl d ++ compileGo cm tl false ds ≠ .many n :: ps := by
    intro d ds heq
    unfold literal at heq
    split at heq
    next h =>
      simp only [Bool.and_eq_true] at h
      have := hcm h.1 d h.2
      cases hl : cm.lower d with
      | nil => exact this hl
      | cons x xs => rw [hl] at heq; simp at heq
    next => simp at heq
  rw [compileGo_cons]
  split
  next h => rcases hc with hc | hc
            · exact absurd h.1 hc
            · rw [hc] at h; simp at h
  next =>
    split
    next => simp
    next =>
      split
      next =>
        cases cs with
        | nil => rw [compileGo_nil]; simp
        | cons d ds =>
          rw [compileGo_cons]
          simp only [Bool.true_eq_false, and_false, if_false]
          exact hlit d ds
      next => exact hlit c cs

theorem noAdj_cons_char (cs : List Char) (ps : List PChar) (h : NoAdj ps) :
    NoAdj (cs.map PChar.char ++ ps) := by
  induction cs with
  | nil => exact h
  | cons c cs ih => simpa [NoAdj] using ih

theorem noAdj_compile (cm : CaseMap) (tl : Bool)
    (hcm : tl = true → ∀ c, cm.isUpper c = true → cm.lower c ≠ [])
    (n : Nat) (esc : Bool) (p : List Char) (hn : p.length ≤ n) : NoAdj (compileGo cm tl esc p) := by
  induction n generalizing p esc with
  | zero =>
    have : p = [] := List.length_eq_zero_iff.mp (by omega)
    subst this
    rw [compileGo_nil]; trivial
  | succ n ih =>
    cases p with
    | nil => rw [compileGo_nil]; trivial
    | cons c cs =>
      simp only [List.length_cons] at hn
      rw [compileGo_cons]
      split
      next hc =>
        have hl := dropWhile_len cs
        have h1 := ih false (cs.dropWhile (· == '*')) (by omega)
        generalize hq : compileGo cm tl false (cs.dropWhile (· == '*')) = q at h1
        match q with
        | [] => trivial
        | .char _ :: _ => simpa [NoAdj] using h1
        | .single :: _ => simpa [NoAdj] using h1
        | .many m :: qs =>
          exfalso
          cases hd : cs.dropWhile (· == '*') with
          | nil => rw [hd, compileGo_nil] at hq; cases hq
          | cons d ds =>
            have hne : d ≠ '*' := by
              have := List.head?_dropWhile_not (· == '*') cs
              rw [hd] at this
              simpa using this
            rw [hd] at hq
            exact compileGo_head cm tl hcm false d ds (Or.inl hne) m qs hq
      next =>
        split
        next => simpa [NoAdj] using ih false cs (by omega)
        next =>
          split
          next => exact ih true cs (by omega)
          next => rw [literal_eq]; exact noAdj_cons_char _ _ (ih false cs (by omega))

theorem wildcards_char (cs : List Char) (ps : List PChar) :
    wildcards (cs.map PChar.char ++ ps) = wildcards ps := by
  induction cs with
  | nil => rfl
  | cons c cs ih => simpa [wildcards] using ih

theorem wildcardCount_stars (k : Nat) (p : List Char) :
    wildcardCount (List.replicate k '*' ++ p) = k + wildcardCount p := by
  induction k with
  | zero => simp
  | succ k ih =>
    simp only [List.replicate_succ, List.cons_append]
    rw [wildcardCount]
    · rw [ih]; simp; omega
    · simp

theorem wildcards_compile (cm : CaseMap) (tl : Bool) (n : Nat) (p : List Char) (hn : p.length ≤ n) :
    wildcards (compileGo cm tl false p) = wildcardCount p := by
  induction n generalizing p with
  | zero =>
    have : p = [] := List.length_eq_zero_iff.mp (by omega)
    subst this
    rw [compileGo_nil]; rfl
  | succ n ih =>
    cases p with
    | nil => rw [compileGo_nil]; rfl
    | cons c cs =>
      simp only [List.length_cons] at hn
      rw [compileGo_cons]
      split
      next hc =>
        obtain ⟨rfl, _⟩ := hc
        have hl := dropWhile_len cs
        simp only [wildcards, ih _ (show (cs.dropWhile (· == '*')).length ≤ n by omega)]
        conv_rhs => rw [star_split cs]
        rw [← List.cons_append, ← List.replicate_succ, wildcardCount_stars]
        omega
      next hc1 =>
        split
        next hc =>
          obtain ⟨rfl, _⟩ := hc
          simp only [wildcards, ih cs (by omega)]
          rw [wildcardCount]
          · simp
          · simp
        next hc2 =>
          split
          next hc =>
            obtain ⟨rfl, _⟩ := hc
            cases cs with
            | nil => rw [compileGo_nil]; rfl
            | cons d ds =>
              rw [compileGo_cons]
              simp only [Bool.true_eq_false, and_false, if_false]
              rw [literal_eq, wildcards_char, ih ds (by simp at hn; omega), wildcardCount]
          next hc3 =>
            rw [literal_eq, wildcards_char, ih cs (by omega), wildcardCount]
            · simp at hc1 hc2
              simp [hc1, hc2]
            · simpa using hc3

/-- The internal failure branches of the extraction loop are never taken. -/
theorem extract_isSome (v : List (Char × Char)) (cp : Nat)
    (ps : List PChar) (r : List Nat) (nx last wp : Nat) (hnx : nx ≤ v.length)
    (h : solveAt (v.map Prod.fst) ps nx = some r) (hadj : NoAdj ps)
    (hlast : last = nx ∨ ∀ n ps', ps ≠ .many n :: ps') :
    ∃ l, extract v cp ps r last wp = some l := by
  induction ps generalizing nx r last wp with
  | nil =>
    simp only [solveAt] at h
    split at h <;> cases h
    exact ⟨_, rfl⟩
  | cons p ps ih =>
    match p with
    | .char c =>
      simp only [solveAt] at h
      split at h
      · rename_i hc
        simp only [List.getElem?_map, Option.map_eq_some_iff] at hc
        obtain ⟨x, hx, _⟩ := hc
        obtain ⟨hl, _⟩ := List.getElem?_eq_some_iff.mp hx
        simp only [Option.map_eq_some_iff] at h
        obtain ⟨r', hr', rfl⟩ := h
        simp only [extract]
        split
        · exact ih r' (nx + 1) (nx + 1) wp (by omega) hr' (by simpa [NoAdj] using hadj) (Or.inl rfl)
        · exact ⟨_, rfl⟩
      · cases h
    | .single =>
      simp only [solveAt, List.length_map] at h
      split at h
      · rename_i hl
        simp only [Option.map_eq_some_iff] at h
        obtain ⟨r', hr', rfl⟩ := h
        simp only [extract]
        obtain ⟨l, hl'⟩ := ih r' (nx + 1) (nx + 1) (wp + 1) (by omega) hr'
          (by simpa [NoAdj] using hadj) (Or.inl rfl)
        rw [List.getElem?_eq_getElem hl, hl']
        split
        · split
          · exact ⟨_, rfl⟩
          · exact ⟨_, rfl⟩
        · exact ⟨_, rfl⟩
      · cases h
    | .many n =>
      simp only [solveAt, List.length_map, search_eq_some, Option.map_eq_some_iff] at h
      obtain ⟨j, h1, h2, ⟨r', hr', rfl⟩, _⟩ := h
      rcases hlast with rfl | hbad
      · have hnoadj : NoAdj ps := by
          cases ps with
          | nil => trivial
          | cons q qs => cases q <;> simp_all [NoAdj]
        have hnext : ∀ m ps', ps ≠ .many m :: ps' := by
          intro m ps' heq
          subst heq
          simp [NoAdj] at hadj
        obtain ⟨l, hl'⟩ := ih r' j (j + 1) (wp + (n - 1) + 1) (by omega) hr' hnoadj (Or.inr hnext)
        simp only [extract]
        rw [hl', if_pos (show last ≤ j ∧ j ≤ v.length by omega)]
        split
        · split
          · exact ⟨_, rfl⟩
          · exact ⟨_, rfl⟩
        · exact ⟨_, rfl⟩
      · exact absurd rfl (hbad n ps)

theorem mw_map {α β} {lit : Char → List α → Prop} {lit' : Char → List β → Prop} (f : α → β)
    (hf : ∀ c w, lit c w → lit' c (w.map f)) {p v ts} (h : MatchesWith lit p v ts) :
    MatchesWith lit' p (v.map f) (ts.map (List.map f)) := by
  induction h with
  | nil => exact .nil
  | star w _ ih => simpa using MatchesWith.star (w.map f) ih
  | quest x _ ih => exact .quest (f x) ih
  | escaped hl _ ih => rw [List.map_append]; exact .escaped (hf _ _ hl) ih
  | literal h1 h2 h3 hl _ ih => rw [List.map_append]; exact .literal h1 h2 h3 (hf _ _ hl) ih
  | dangling => exact .dangling

end Sieve.Glob
