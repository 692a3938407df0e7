import Verif.GlobString
/-
C01, C02, C03: wildcard matching.
Specification: `MatchesWith`, `lexLe`, `numbered`, `wildcardCount` (GlobSpec.lean).
-/
namespace Sieve.Glob

theorem solve_iff (cm : CaseMap) (tl : Bool) (p : List Char) (vv : List (Char × Char)) :
    (solveAt (vv.map Prod.fst) (compile cm p tl) 0).isSome = true ↔
      ∃ ts, MatchesWith (pairLit cm tl) p vv ts := by
  constructor
  · intro h
    obtain ⟨r, hr⟩ := Option.isSome_iff_exists.mp h
    have := solveAt_kmatch vv _ 0 r (by omega) hr
    exact ⟨_, kmatch_mw cm tl p.length p (le_refl _) _ _ this⟩
  · rintro ⟨ts, hts⟩
    obtain ⟨us, hu, _⟩ := mw_kmatch cm tl p.length p (le_refl _) _ _ hts
    obtain ⟨r, hr, _⟩ := kmatch_solveAt vv (compile cm p tl) 0 (by omega) us (by rw [List.drop_zero]; exact hu)
    rw [hr]; rfl

theorem mw_dup {cm : CaseMap} {tl : Bool} {p v ts}
    (h : MatchesWith (fun c w => w = foldLit cm tl c) p v ts) :
    MatchesWith (pairLit cm tl) p (v.map fun c => (c, c)) (ts.map (List.map fun c => (c, c))) :=
  mw_map _ (fun c w hw => by
    show List.map Prod.fst (List.map (fun c => (c, c)) w) = _
    rw [List.map_map, ← hw]; exact List.map_id w) h

theorem globMatches_fold (cm : CaseMap) (tl : Bool) (p v : List Char) :
    ∃ b, globMatches cm tl (compile cm p tl) v = some b ∧
      (b = true ↔ ∃ ts, MatchesWith (fun c w => w = foldLit cm tl c) p
        (if tl then cm.strLower v else v) ts) := by
  refine ⟨_, mrun_start _ _, ?_⟩
  generalize (if tl then cm.strLower v else v) = u
  have hu : u = (u.map fun c => (c, c)).map Prod.fst := by
    rw [List.map_map]; exact (List.map_id u).symm
  constructor
  · intro h
    rw [hu, solve_iff] at h
    obtain ⟨ts, hts⟩ := h
    have h2 := mw_map (lit' := fun c w => w = foldLit cm tl c) Prod.fst (fun c w hw => hw) hts
    rw [← hu] at h2
    exact ⟨_, h2⟩
  · rintro ⟨ts, hts⟩
    have h := mw_dup hts
    rw [hu, solve_iff]
    exact ⟨_, h⟩

/-- **C01**, comparator `i;octet`: matching terminates and accepts exactly the values described
by the pattern (`*` any text, `?` one character, `\c` the character `c`, other characters
themselves). -/
theorem matches_octet (cm : CaseMap) (p v : List Char) :
    ∃ b, globMatches cm false (compile cm p false) v = some b ∧
      (b = true ↔ ∃ ts, MatchesWith exactly p v ts) :=
  globMatches_fold cm false p v

/-- A literal under case folding: the lower-case form of `c`. -/
def folded (cm : CaseMap) (c : Char) (w : List Char) : Prop :=
  w = if cm.isUpper c = true then cm.lower c else [c]

/-- **C01**, comparator `i;ascii-casemap`: the lower-cased value is described by the pattern
with its literals lower-cased. -/
theorem matches_casemap (cm : CaseMap) (p v : List Char) :
    ∃ b, globMatches cm true (compile cm p true) v = some b ∧
      (b = true ↔ ∃ ts, MatchesWith (folded cm) p (cm.strLower v) ts) := by
  have h := globMatches_fold cm true p v
  have e : (fun c w => w = foldLit cm true c) = folded cm := by
    funext c w; simp [folded, foldLit]
  rw [e] at h
  exact h

/-- A case map for the examples: only `A` is upper case. -/
def demoCase : CaseMap :=
  ⟨fun c => c == 'A', fun _ => ['a'], fun s => s.map fun c => if c = 'A' then 'a' else c⟩

example : MatchesWith exactly "*,?\\*".toList "xy,z*".toList ["xy".toList, "z".toList] :=
  .star ['x', 'y'] (.literal (w := [',']) (by decide) (by decide) (by decide) rfl
    (.quest 'z' (.escaped (w := ['*']) rfl .nil)))

example : MatchesWith (folded demoCase) "A*".toList (demoCase.strLower "aAb".toList)
    ["ab".toList] :=
  .literal (c := 'A') (w := ['a']) (by decide) (by decide) (by decide) (by simp [folded, demoCase])
    (.star ['a', 'b'] .nil)

/-! ### Capture -/

theorem capture_general (cm : CaseMap) (tl : Bool)
    (hcm : tl = true → ∀ c, cm.isUpper c = true → cm.lower c ≠ [])
    (p v : List Char) (cp : Nat) :
    ∃ r, globCapture cm tl (compile cm p tl) v cp = some r ∧
      (r.isSome = true ↔ ∃ ts, MatchesWith (pairLit cm tl) p (captureValue cm tl v) ts) ∧
      ((∀ x ∈ captureValue cm tl v, x.2 ≠ replacement) → wildcardCount p ≤ 63 →
        ∀ l, r = some l → ∃ ts, MatchesWith (pairLit cm tl) p (captureValue cm tl v) ts ∧
          l = (if cp.testBit 0 then [(0, v)] else []) ++
            numbered cp 1 (ts.map (List.map Prod.snd)) ∧
          ∀ ts', MatchesWith (pairLit cm tl) p (captureValue cm tl v) ts' →
            lexLe (ts.map List.length) (ts'.map List.length)) := by
  unfold globCapture
  simp only
  rw [crun_start]
  have hiff := solve_iff cm tl p (captureValue cm tl v)
  have hadj : NoAdj (compile cm p tl) := noAdj_compile cm tl hcm p.length false p (le_refl _)
  cases hs : solveAt ((captureValue cm tl v).map Prod.fst) (compile cm p tl) 0 with
  | none =>
    rw [hs] at hiff
    refine ⟨none, rfl, hiff, ?_⟩
    intro _ _ l hl; cases hl
  | some r =>
    rw [hs] at hiff
    obtain ⟨e, he⟩ := extract_isSome (captureValue cm tl v) cp _ r 0 0 1 (by omega) hs hadj
      (Or.inl rfl)
    simp only [he, Option.map_some]
    refine ⟨_, rfl, by simpa using hiff, ?_⟩
    intro hv hw l hl
    cases hl
    have hwc : wildcards (compile cm p tl) = wildcardCount p :=
      wildcards_compile cm tl p.length p (le_refl _)
    have hx := extract_spec (captureValue cm tl v) hv cp _ r 0 0 1 (by omega) hs hadj
      (by omega) (Or.inl rfl)
    rw [he] at hx
    have hk := solveAt_kmatch _ _ 0 r (by omega) hs
    refine ⟨_, kmatch_mw cm tl p.length p (le_refl _) _ _ hk, ?_, ?_⟩
    · cases hx
      rw [bit_lt cp (show 0 < 64 by omega)]
      rfl
    · intro ts' hts'
      obtain ⟨us', hu1, hu2⟩ := mw_kmatch cm tl p.length p (le_refl _) _ _ hts'
      obtain ⟨r', hr', hle⟩ := kmatch_solveAt (captureValue cm tl v) (compile cm p tl) 0
        (by omega) us' (by rw [List.drop_zero]; exact hu1)
      rw [hs] at hr'
      cases hr'
      exact lexLe_trans (lexLe_expand _ _ _ _ _ hk hu1 hle) hu2

theorem captureValue_octet (cm : CaseMap) (v : List Char) :
    captureValue cm false v = v.map fun c => (c, c) := rfl

theorem mw_undup {cm : CaseMap} {p v ts}
    (h : MatchesWith (pairLit cm false) p (v.map fun c => (c, c)) ts) :
    MatchesWith exactly p v (ts.map (List.map Prod.snd)) ∧
      ts = (ts.map (List.map Prod.snd)).map (List.map fun c => (c, c)) := by
  generalize hu : (v.map fun c => (c, c)) = u at h
  induction h generalizing v with
  | nil =>
    have : v = [] := by simpa using hu
    subst this
    exact ⟨.nil, rfl⟩
  | star w _ ih =>
    obtain ⟨v1, v2, rfl, rfl, h2⟩ := List.map_eq_append_iff.mp hu
    obtain ⟨i1, i2⟩ := ih h2
    have e : List.map Prod.snd (List.map (fun c : Char => (c, c)) v1) = v1 := by
      rw [List.map_map]; exact List.map_id v1
    refine ⟨?_, ?_⟩
    · rw [List.map_cons, e]; exact .star v1 i1
    · simp only [List.map_cons, e, ← i2]
  | quest x _ ih =>
    obtain ⟨c, v2, rfl, rfl, h2⟩ := List.map_eq_cons_iff.mp hu
    obtain ⟨i1, i2⟩ := ih h2
    refine ⟨.quest c i1, ?_⟩
    rw [List.map_cons, List.map_cons, ← i2]; rfl
  | escaped hl _ ih =>
    obtain ⟨v1, v2, rfl, rfl, h2⟩ := List.map_eq_append_iff.mp hu
    obtain ⟨i1, i2⟩ := ih h2
    refine ⟨.escaped ?_ i1, i2⟩
    have hl' : List.map Prod.fst (List.map (fun c : Char => (c, c)) v1) = _ := hl
    rw [List.map_map] at hl'
    simpa [exactly, foldLit] using hl'
  | literal h1 h2 h3 hl _ ih =>
    obtain ⟨v1, v2, rfl, rfl, h2'⟩ := List.map_eq_append_iff.mp hu
    obtain ⟨i1, i2⟩ := ih h2'
    refine ⟨.literal h1 h2 h3 ?_ i1, i2⟩
    have hl' : List.map Prod.fst (List.map (fun c : Char => (c, c)) v1) = _ := hl
    rw [List.map_map] at hl'
    simpa [exactly, foldLit] using hl'
  | dangling =>
    have : v = [] := by simpa using hu
    subst this
    exact ⟨.dangling, rfl⟩

theorem mw_octet_iff {cm : CaseMap} {p v : List Char} :
    (∃ ts, MatchesWith (pairLit cm false) p (captureValue cm false v) ts) ↔
      ∃ ts, MatchesWith exactly p v ts := by
  rw [captureValue_octet]
  constructor
  · rintro ⟨ts, h⟩; exact ⟨_, (mw_undup h).1⟩
  · rintro ⟨ts, h⟩
    refine ⟨_, mw_dup (cm := cm) (tl := false) (ts := ts) ?_⟩
    have e : (fun c w => w = foldLit cm false c) = exactly := by
      funext c w; simp [exactly, foldLit]
    rw [e]; exact h

/-- **C02** (verdict), `i;octet`: for every pattern, value and set of requested captures, the
capturing matcher returns the same verdict as the plain one. -/
theorem capture_verdict_octet (cm : CaseMap) (p v : List Char) (cp : Nat) :
    ∃ r, globCapture cm false (compile cm p false) v cp = some r ∧
      globMatches cm false (compile cm p false) v = some r.isSome := by
  obtain ⟨r, hr, hiff, _⟩ := capture_general cm false (by simp) p v cp
  obtain ⟨b, hb, hb'⟩ := matches_octet cm p v
  refine ⟨r, hr, ?_⟩
  rw [hb]
  rw [mw_octet_iff, ← hb'] at hiff
  congr 1
  cases b <;> cases h : r.isSome <;> simp_all

/-- **C02** (verdict), `i;ascii-casemap`: the verdicts agree whenever lower-casing the whole
value is the same as lower-casing its upper-case characters one by one (the code uses
`str::to_lowercase` in one function and `char::to_lowercase` in the other). -/
theorem capture_verdict_casemap_partial (cm : CaseMap)
    (hcm : ∀ c, cm.isUpper c = true → cm.lower c ≠ []) (p v : List Char) (cp : Nat)
    (hlow : cm.strLower v = v.flatMap fun c => if cm.isUpper c = true then cm.lower c else [c]) :
    ∃ r, globCapture cm true (compile cm p true) v cp = some r ∧
      globMatches cm true (compile cm p true) v = some r.isSome := by
  obtain ⟨r, hr, hiff, _⟩ := capture_general cm true (fun _ => hcm) p v cp
  refine ⟨r, hr, ?_⟩
  have hv : (captureValue cm true v).map Prod.fst = cm.strLower v := by
    rw [hlow]
    simp only [captureValue, if_true]
    rw [List.map_flatMap]
    congr 1
    funext c
    split
    · cases cm.lower c with
      | nil => rfl
      | cons l ls => simp [Function.comp_def]
    · rfl
  have hm : globMatches cm true (compile cm p true) v =
      some (solveAt (cm.strLower v) (compile cm p true) 0).isSome := mrun_start _ _
  rw [hm, ← hv]
  congr 1
  have := solve_iff cm true p (captureValue cm true v)
  rw [← hiff] at this
  cases h : r.isSome <;> simp_all

/-- **C02** (contents) and **C03**, `i;octet`: with at most 63 wildcards and a value free of
U+FFFD, the captured variables are the whole value for 0 and, for 1, 2, …, the texts of the
wildcards of a match of the pattern (restricted to the requested variables); that match gives
each wildcard, from left to right, the shortest possible text. -/
theorem capture_octet_partial (cm : CaseMap) (p v : List Char) (cp : Nat)
    (hv : Char.ofNat 0xFFFD ∉ v) (hw : wildcardCount p ≤ 63)
    (l : List (Nat × List Char))
    (h : globCapture cm false (compile cm p false) v cp = some (some l)) :
    ∃ ts, MatchesWith exactly p v ts ∧
      l = (if cp.testBit 0 then [(0, v)] else []) ++ numbered cp 1 ts ∧
      ∀ ts', MatchesWith exactly p v ts' → lexLe (ts.map List.length) (ts'.map List.length) := by
  obtain ⟨r, hr, _, hspec⟩ := capture_general cm false (by simp) p v cp
  rw [h] at hr
  cases hr
  obtain ⟨ts, h1, h2, h3⟩ := hspec
    (by
      intro x hx heq
      rw [captureValue_octet, List.mem_map] at hx
      obtain ⟨c, hc, rfl⟩ := hx
      exact hv (by rw [show Char.ofNat 0xFFFD = c from heq.symm]; exact hc))
    hw l rfl
  rw [captureValue_octet] at h1 h3
  obtain ⟨h4, h5⟩ := mw_undup h1
  refine ⟨_, h4, h2, ?_⟩
  intro ts' hts'
  have e : (fun c w => w = foldLit cm false c) = exactly := by
    funext c w; simp [exactly, foldLit]
  have h6 := h3 _ (mw_dup (cm := cm) (tl := false) (ts := ts') (by rw [e]; exact hts'))
  simpa [List.map_map, Function.comp_def] using h6

/-- A literal under case folding against original text: both fold to the same characters. -/
def caseless (cm : CaseMap) (c : Char) (w : List Char) : Prop :=
  (w.flatMap fun x => if cm.isUpper x = true then cm.lower x else [x]) =
    if cm.isUpper c = true then cm.lower c else [c]

/-- Folding a character that folds to one character. -/
def fold1 (cm : CaseMap) (c : Char) : Char :=
  if cm.isUpper c = true then (cm.lower c).headD c else c

theorem fold_map {cm : CaseMap} {w : List Char}
    (h : ∀ c ∈ w, cm.isUpper c = true → ∃ l, cm.lower c = [l]) :
    (w.flatMap fun x => if cm.isUpper x = true then cm.lower x else [x]) = w.map (fold1 cm) := by
  induction w with
  | nil => rfl
  | cons c cs ih =>
    rw [List.flatMap_cons, ih fun d hd => h d (List.mem_cons_of_mem _ hd), List.map_cons]
    unfold fold1
    split
    · rename_i hu
      obtain ⟨l, hl⟩ := h c (List.mem_cons_self ..) hu
      rw [hl]; rfl
    · rfl

theorem captureValue_casemap {cm : CaseMap} {w : List Char}
    (h : ∀ c ∈ w, cm.isUpper c = true → ∃ l, cm.lower c = [l]) :
    captureValue cm true w = w.map fun c => (fold1 cm c, c) := by
  simp only [captureValue, if_true]
  induction w with
  | nil => rfl
  | cons c cs ih =>
    rw [List.flatMap_cons, ih fun d hd => h d (List.mem_cons_of_mem _ hd), List.map_cons]
    unfold fold1
    split
    · rename_i hu
      obtain ⟨l, hl⟩ := h c (List.mem_cons_self ..) hu
      rw [hl]; rfl
    · rfl

theorem mw_mono_mem {α} {lit lit' : Char → List α → Prop} {p v ts}
    (h : MatchesWith lit p v ts) (hl : ∀ c w, (∀ x ∈ w, x ∈ v) → lit c w → lit' c w) :
    MatchesWith lit' p v ts := by
  induction h with
  | nil => exact .nil
  | star w _ ih =>
    exact .star w (ih fun c u hu => hl c u fun x hx => List.mem_append_right _ (hu x hx))
  | quest x _ ih =>
    exact .quest x (ih fun c u hu => hl c u fun x hx => List.mem_cons_of_mem _ (hu x hx))
  | escaped h1 _ ih =>
    exact .escaped (hl _ _ (fun x hx => List.mem_append_left _ hx) h1)
      (ih fun c u hu => hl c u fun x hx => List.mem_append_right _ (hu x hx))
  | literal a b c' h1 _ ih =>
    exact .literal a b c' (hl _ _ (fun x hx => List.mem_append_left _ hx) h1)
      (ih fun c u hu => hl c u fun x hx => List.mem_append_right _ (hu x hx))
  | dangling => exact .dangling

/-- **C02** (contents) and **C03**, `i;ascii-casemap`: as `capture_octet_partial`, the captured
texts having the case of the original value, for values whose upper-case characters each have a
one-character lower-case form. -/
theorem capture_casemap_partial (cm : CaseMap)
    (hcm : ∀ c, cm.isUpper c = true → cm.lower c ≠ []) (p v : List Char) (cp : Nat)
    (hone : ∀ c ∈ v, cm.isUpper c = true → ∃ l, cm.lower c = [l])
    (hv : Char.ofNat 0xFFFD ∉ v) (hw : wildcardCount p ≤ 63)
    (l : List (Nat × List Char))
    (h : globCapture cm true (compile cm p true) v cp = some (some l)) :
    ∃ ts, MatchesWith (caseless cm) p v ts ∧
      l = (if cp.testBit 0 then [(0, v)] else []) ++ numbered cp 1 ts ∧
      ∀ ts', MatchesWith (caseless cm) p v ts' →
        lexLe (ts.map List.length) (ts'.map List.length) := by
  obtain ⟨r, hr, _, hspec⟩ := capture_general cm true (fun _ => hcm) p v cp
  rw [h] at hr
  cases hr
  have hcv := captureValue_casemap hone
  obtain ⟨ts, h1, h2, h3⟩ := hspec
    (by
      intro x hx heq
      rw [hcv, List.mem_map] at hx
      obtain ⟨c, hc, rfl⟩ := hx
      exact hv (by rw [show Char.ofNat 0xFFFD = c from heq.symm]; exact hc))
    hw l rfl
  rw [hcv] at h1 h3
  refine ⟨ts.map (List.map Prod.snd), ?_, h2, ?_⟩
  · have h4 := mw_mono_mem (lit' := fun c w => caseless cm c (w.map Prod.snd)) h1 ?_
    · have h5 := mw_map (lit' := caseless cm) Prod.snd (fun c w hw => hw) h4
      rw [List.map_map] at h5
      have e : List.map (Prod.snd ∘ fun c => (fold1 cm c, c)) v = v := List.map_id v
      rwa [e] at h5
    · intro c w hw1 hw2
      unfold caseless
      have hwv : ∀ x ∈ w, x = (fold1 cm x.2, x.2) ∧ x.2 ∈ v := by
        intro x hx
        obtain ⟨d, hd, rfl⟩ := List.mem_map.mp (hw1 x hx)
        exact ⟨rfl, hd⟩
      rw [fold_map]
      · unfold pairLit foldLit at hw2
        simp only [Bool.true_and] at hw2
        rw [← hw2, List.map_map]
        apply List.map_congr_left
        intro x hx
        rw [(hwv x hx).1]; rfl
      · intro d hd
        obtain ⟨x, hx, rfl⟩ := List.mem_map.mp hd
        exact hone _ (hwv x hx).2
  · intro ts' hts'
    have h4 := mw_mono_mem (lit' := fun c w => w.map (fold1 cm) = foldLit cm true c) hts' ?_
    · have h5 := mw_map (lit' := pairLit cm true) (fun c => (fold1 cm c, c)) (fun c w hw => by
        show List.map Prod.fst _ = _
        rw [List.map_map]; exact hw) h4
      have h6 := h3 _ h5
      simpa [List.map_map, Function.comp_def] using h6
    · intro c w hw1 hw2
      unfold caseless at hw2
      rw [fold_map fun d hd => hone d (hw1 d hd)] at hw2
      simpa [foldLit] using hw2

example : globCapture demoCase false (compile demoCase "*top*".toList false)
    "toptop".toList 7 =
      some (some [(0, "toptop".toList), (1, []), (2, "top".toList)]) := by
  have : compile demoCase "*top*".toList false =
      [.many 1, .char 't', .char 'o', .char 'p', .many 1] := by simp [compile, compileGo, literal]
  rw [this]; decide

example : globCapture demoCase true (compile demoCase "?a*".toList true)
    "bAAb".toList 6 = some (some [(1, "b".toList), (2, "Ab".toList)]) := by
  have : compile demoCase "?a*".toList true = [.single, .char 'a', .many 1] := by
    simp [compile, compileGo, literal, demoCase]
  rw [this]; decide

example : ∀ c, demoCase.isUpper c = true → demoCase.lower c ≠ [] := fun _ _ => by simp [demoCase]

/-- The hypothesis on U+FFFD is necessary: a U+FFFD of the value is missing from the text
captured by `*`, so the wildcard texts do not rebuild the value. -/
theorem capture_drops_replacement :
    ∃ (v : List Char) (l : List (Nat × List Char)),
      globCapture demoCase false (compile demoCase ['*'] false) v 2 = some (some l) ∧
      ∀ ts, MatchesWith exactly ['*'] v ts → l ≠ numbered 2 1 ts := by
  refine ⟨['x', Char.ofNat 0xFFFD], [(1, ['x'])], ?_, ?_⟩
  · rw [show compile demoCase ['*'] false = [.many 1] by simp [compile, compileGo]]
    decide
  intro ts hts heq
  generalize hp : ['*'] = p at hts
  generalize hu : ['x', Char.ofNat 0xFFFD] = u at hts
  cases hts with
  | star w h =>
    simp only [List.cons.injEq, true_and] at hp
    subst hp
    cases h
    simp only [List.append_nil] at hu
    subst hu
    exact absurd heq (by decide)
  | literal h1 => simp only [List.cons.injEq] at hp; exact h1 hp.1.symm
  | _ => simp at hp

end Sieve.Glob
