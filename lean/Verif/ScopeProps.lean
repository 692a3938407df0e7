import Verif.ScopeStatic

/-!
# C22, C54, C55: variables
-/

namespace Sieve.Scope

variable {W V : Type}

/-- Every place that is not visited by `map_local_vars` refers to no variable declared by `:local` inside a block. -/
def kept {K : Type} (c : Code W V (Ref Id) K) : Prop := ∀ u ∈ reads c, u.mapped = false → ∀ k, u.ref ≠ .loc (.outer k)

/-- Global variables declared by `global` are read in lower case. -/
def LowerGlobals (s : Stmt W V) : Prop := ∀ u ∈ reads s, ∀ n, u.ref = .plain n → ascii n ∈ declared s → ascii n = n

theorem matches_len {P nv L c c' L'} (h : Matches (W := W) (V := V) P nv L c c' L') (hL : L.length ≤ nv) : L'.length ≤ nv := by
  induction h with
  | seq _ _ i1 i2 => exact i2 (i1 hL)
  | set _ h2 _ _ => exact h2
  | _ => exact hL

theorem mapRef_match {nv nl : Nat} (hn : nv + nl ≤ top) {L : List Nat} (hL : L.length ≤ nv) {r r'}
    (h : RefM (Loc nl) L r r') : RefM (Placed nv nl) L (mapRef nv r) r' := by
  cases r <;> cases r' <;> try exact h
  rename_i id d
  cases d with
  | own d =>
    simp only [RefM, Loc, mapRef, mapId, Placed] at h ⊢
    rw [if_neg]
    · exact h
    · intro hlt
      rw [List.getElem?_eq_none (by omega)] at h
      cases h
  | outer k =>
    simp only [RefM, Loc, mapRef, mapId, Placed] at h ⊢
    obtain ⟨rfl, hk⟩ := h
    rw [if_pos (by omega)]
    omega

theorem mapUses_match {nv nl : Nat} (hn : nv + nl ≤ top) {L : List Nat} (hL : L.length ≤ nv) {us us'}
    (h : List.Forall₂ (UseM (Loc nl) L) us us') (hk : ∀ u ∈ us', u.mapped = false → ∀ k, u.ref ≠ .loc (.outer k)) :
    List.Forall₂ (UseM (Placed nv nl) L) (us.map (mapUse nv)) us' := by
  induction h with
  | nil => exact .nil
  | @cons u u' us us' h1 _ ih =>
    refine .cons ?_ (ih fun u h => hk u (by simp [h]))
    obtain ⟨h1, h2⟩ := h1
    unfold mapUse
    by_cases hm : u.mapped = true
    · rw [if_pos hm]
      exact ⟨mapRef_match hn hL h1, by rw [← h2, hm]⟩
    · rw [if_neg hm]
      refine ⟨?_, h2⟩
      have := hk u' (by simp) (by rw [← h2]; simpa using hm)
      generalize u.ref = r at h1 ⊢
      generalize u'.ref = r' at h1 this ⊢
      cases r <;> cases r' <;> try exact h1
      rename_i id d
      cases d with
      | own d => exact h1
      | outer k => exact absurd rfl (this k)

theorem map_match {nv nl : Nat} (hn : nv + nl ≤ top) {L c c' L'} (h : Matches (W := W) (V := V) (Loc nl) nv L c c' L')
    (hL : L.length ≤ nv) (hk : kept c') : Matches (Placed nv nl) nv L (mapCode nv c) c' L' := by
  induction h with
  | skip => exact .skip
  | exit => exact .exit
  | seq h1 _ i1 i2 =>
    exact .seq (i1 hL fun u h => hk u (by simp [reads, h])) (i2 (matches_len h1 hL) fun u h => hk u (by simp [reads, h]))
  | set h1 h2 h3 h4 => exact .set h1 h2 (mapRef_match hn h2 h3) (mapUses_match hn h2 h4 fun u h => hk u (by simp [reads, h]))
  | act h1 => exact .act (mapUses_match hn hL h1 fun u h => hk u (by simp [reads, h]))
  | ite h1 _ h3 _ h5 i1 i2 =>
    exact .ite (mapUses_match hn hL h1 fun u h => hk u (by simp [reads, h])) (i1 hL fun u h => hk u (by simp [reads, h])) h3
      (i2 hL fun u h => hk u (by simp [reads, h])) h5
  | loop h1 _ h3 i1 =>
    exact .loop (mapUses_match hn hL h1 fun u h => hk u (by simp [reads, h])) (i1 hL fun u h => hk u (by simp [reads, h])) h3

theorem matches_imp {P Q : List Nat → Nat → Id → Prop} (hPQ : ∀ L id d, P L id d → Q L id d) {nv L c c' L'}
    (h : Matches (W := W) (V := V) P nv L c c' L') : Matches Q nv L c c' L' := by
  have refM : ∀ {L r r'}, RefM P L r r' → RefM Q L r r' := by
    intro L r r' h
    cases r <;> cases r' <;> first | exact h | exact hPQ _ _ _ h
  have useM : ∀ {L us us'}, List.Forall₂ (UseM P L) us us' → List.Forall₂ (UseM Q L) us us' :=
    fun h => forall₂_imp (fun _ _ h => ⟨refM h.1, h.2⟩) h
  induction h with
  | skip => exact .skip
  | exit => exact .exit
  | seq _ _ i1 i2 => exact .seq i1 i2
  | set h1 h2 h3 h4 => exact .set h1 h2 (refM h3) (useM h4)
  | act h1 => exact .act (useM h1)
  | ite h1 _ h3 _ h5 i1 i2 => exact .ite (useM h1) i1 h3 i2 h5
  | loop h1 _ h3 i1 => exact .loop (useM h1) i1 h3

theorem al_new : Al [⟨[], [], []⟩] [] St.new Sp.new := by
  refine ⟨rfl, rfl, ?_, by simp, rfl, rfl, rfl, rfl, by simp⟩
  intro l hl
  simp only [List.mem_singleton] at hl
  subst hl
  exact .nil

/-- The compiler accepts exactly the scripts that declare no variable in scope as global, and what it makes of them
matches the variables. -/
theorem compile_matches (s : Stmt W V) (hg : LowerGlobals s) :
    (compile s = none ∧ specify s Sp.new = none) ∨ ∃ c c' n sp nv nl L, compile s = some (c, n)
      ∧ specify s Sp.new = some (c', sp) ∧ n = nv + nl
      ∧ (n ≤ top → kept c' → Matches (Placed nv nl) nv [] c c' L) := by
  have h := resolve_match (declared s) s (l := ⟨[], [], []⟩) (lv := []) (st := St.new) (sp := Sp.new) al_new
    (by simp [St.new]) (fun _ h => h) (fun u hu n e hd => hg u hu n e hd)
  unfold compile
  cases hr : resolve s St.new with
  | none =>
    rw [hr] at h
    cases hr' : specify s Sp.new with
    | none => exact Or.inl ⟨rfl, rfl⟩
    | some r' => rw [hr'] at h; exact h.elim
  | some r =>
    rw [hr] at h
    cases hr' : specify s Sp.new with
    | none => rw [hr'] at h; exact h.elim
    | some r' =>
      rw [hr'] at h
      obtain ⟨c, st⟩ := r
      obtain ⟨c', sp⟩ := r'
      obtain ⟨_, A, l', lv', hgr, hM⟩ := h
      right
      simp only [List.nil_append] at hM
      by_cases hl : 0 < st.loc
      · refine ⟨mapCode (mark st) c, c', mark st + st.loc, sp, mark st, st.loc, A, ?_, rfl, rfl, ?_⟩
        · simp only [if_pos hl, mark]
        · intro hn hk
          exact map_match hn hM (by simp) hk
      · have hl0 : st.loc = 0 := by omega
        refine ⟨c, c', mark st, sp, mark st, 0, A, ?_, rfl, rfl, ?_⟩
        · simp only [if_neg hl, mark]
        · intro _ _
          refine matches_imp ?_ hM
          intro L id d h
          cases d with
          | own d => exact h
          | outer k =>
            have := h.2
            omega

theorem same_new (empty : V) (nv nl : Nat) (g : Name → V) :
    Same empty nv nl [] ⟨List.replicate (nv + nl) empty, g⟩ ⟨fun _ => empty, g⟩ := by
  refine ⟨rfl, by simp, by simp, by simp, by simp, ?_, ?_, fun _ _ => rfl⟩
  · intro i _ h
    simp only [List.getElem?_replicate]
    rw [if_pos (by omega)]
  · intro k h
    simp only [List.getElem?_replicate]
    rw [if_pos (by omega)]

/-- **C22, C54, C55 (1).** The compiler accepts a script exactly if it declares no variable as global that is in scope
as a local one; and a script it accepts does exactly what it does when every variable has a cell of its own that is
empty when its block is entered, names refer to the innermost variable of that name, and the case of letters does
not matter.

What is missing: (1) a block that has variables is not left by `break` or `continue` (`tidy`), see
`break_keeps_value`; (2) variables declared by `:local` in a block are not read in `:replace` and `:content`
(`kept`), see `replace_loses_local`; (3) globals are read in lower case, see `global_case_lost`. -/
theorem variables_partial (empty : V) (s : Stmt W V) (hg : LowerGlobals s) :
    (compile s = none ↔ specify s Sp.new = none)
    ∧ ∀ p, compile s = some p → p.2 < 2 ^ 32 → (∀ c sp, specify s Sp.new = some (c, sp) → tidy c = true ∧ kept c) →
      ∀ fuel w g, execute empty fuel p w g = meaning empty fuel s w g := by
  rcases compile_matches s hg with ⟨h1, h2⟩ | ⟨c, c', n, sp, nv, nl, L, h1, h2, rfl, h3⟩
  · rw [h1, h2]
    exact ⟨by simp, by simp⟩
  · rw [h1]
    refine ⟨by simp [h2], ?_⟩
    intro p hp hn hc fuel w g
    injection hp with hp
    subst hp
    obtain ⟨ht, hk⟩ := hc c' sp h2
    have hM := h3 (by simp only [top]; simp only at hn; omega) hk
    have := simulate fuel hM ht w _ _ (same_new empty nv nl g)
    unfold execute meaning
    rw [h2]
    simp only
    generalize run (slots empty) false fuel c w ⟨List.replicate (nv + nl) empty, g⟩ = r at this ⊢
    generalize run (cells empty) true fuel c' w ⟨fun _ => empty, g⟩ = r' at this ⊢
    cases r with
    | none =>
      cases r' with
      | none => rfl
      | some r' => exact this.elim
    | some r =>
      cases r' with
      | none => exact this.elim
      | some r' =>
        obtain ⟨w1, m, e⟩ := r
        obtain ⟨w2, m', e'⟩ := r'
        obtain ⟨rfl, rfl, h4, h5⟩ := this
        simp only [Option.map_some, Option.some.injEq, Prod.mk.injEq, true_and]
        by_cases he : e = .normal
        · exact (h4 he).globals
        · obtain ⟨_, _, _, _, hs⟩ := h5 he
          exact hs.globals

/-- The slots a program refers to. -/
def ids {K : Type} : Code W V (Ref Nat) K → List Nat
  | .seq a b => ids a ++ ids b
  | .set x _ us _ => (x :: us.map Use.ref).filterMap fun | .loc i => some i | _ => none
  | .act us _ => (us.map Use.ref).filterMap fun | .loc i => some i | _ => none
  | .ite us _ a _ b _ => ((us.map Use.ref).filterMap fun | .loc i => some i | _ => none) ++ ids a ++ ids b
  | .loop us _ a _ => ((us.map Use.ref).filterMap fun | .loc i => some i | _ => none) ++ ids a
  | _ => []

theorem placed_lt {nv nl : Nat} {L : List Nat} (hL : L.length ≤ nv) {r r' i} (h : RefM (Placed nv nl) L r r') (hr : r = .loc i) :
    i < nv + nl := by
  subst hr
  cases r' <;> simp only [RefM] at h
  rename_i d
  cases d with
  | own d =>
    simp only [Placed] at h
    by_contra hc
    rw [List.getElem?_eq_none (by omega)] at h
    cases h
  | outer k =>
    obtain ⟨rfl, hk⟩ := h
    omega

theorem uses_lt {nv nl : Nat} {L : List Nat} (hL : L.length ≤ nv) {us us'} (h : List.Forall₂ (UseM (Placed nv nl) L) us us') {i}
    (hi : i ∈ (us.map Use.ref).filterMap fun | .loc i => some i | _ => none) : i < nv + nl := by
  induction h with
  | nil => simp at hi
  | cons h1 _ ih =>
    simp only [List.map_cons, List.filterMap_cons] at hi
    split at hi
    · exact ih hi
    · rename_i j hj
      rcases List.mem_cons.mp hi with rfl | hi
      · split at hj
        · rename_i hr
          injection hj with hj
          subst hj
          exact placed_lt hL h1.1 hr
        · cases hj
      · exact ih hi

theorem matches_ids {nv nl : Nat} {L c c' L'} (h : Matches (W := W) (V := V) (Placed nv nl) nv L c c' L') (hL : L.length ≤ nv) :
    ∀ i ∈ ids c, i < nv + nl := by
  induction h with
  | skip => simp [ids]
  | exit => simp [ids]
  | seq h1 _ i1 i2 =>
    intro i hi
    rcases List.mem_append.mp hi with hi | hi
    · exact i1 hL i hi
    · exact i2 (matches_len h1 hL) i hi
  | set h1 h2 h3 h4 =>
    intro i hi
    simp only [ids, List.filterMap_cons] at hi
    split at hi
    · exact uses_lt h2 h4 hi
    · rename_i j hj
      rcases List.mem_cons.mp hi with rfl | hi
      · split at hj
        · injection hj with hj
          subst hj
          exact placed_lt h2 h3 rfl
        · cases hj
      · exact uses_lt h2 h4 hi
  | act h1 => exact fun i hi => uses_lt hL h1 hi
  | ite h1 _ h3 _ h5 i1 i2 =>
    intro i hi
    simp only [ids, List.mem_append] at hi
    rcases hi with (hi | hi) | hi
    · exact uses_lt hL h1 hi
    · exact i1 hL i hi
    · exact i2 hL i hi
  | loop h1 _ h3 i1 =>
    intro i hi
    simp only [ids, List.mem_append] at hi
    rcases hi with hi | hi
    · exact uses_lt hL h1 hi
    · exact i1 hL i hi

/-- **C22 (2).** Every slot the program refers to exists.  What is missing: see `variables_partial` (2) and
`replace_loses_local`. -/
theorem slots_exist_partial (s : Stmt W V) (hg : LowerGlobals s) {c n} (hc : compile s = some (c, n)) (hn : n < 2 ^ 32)
    (hk : ∀ c' sp, specify s Sp.new = some (c', sp) → kept c') : ∀ i ∈ ids c, i < n := by
  rcases compile_matches s hg with ⟨h1, _⟩ | ⟨c1, c', n1, sp, nv, nl, L, h1, h2, rfl, h3⟩
  · rw [h1] at hc; cases hc
  · rw [h1] at hc
    injection hc with hc
    injection hc with e1 e2
    subst e1; subst e2
    exact matches_ids (h3 (by simp only [top]; omega) (hk c' sp h2)) (by simp)

/-! ## Examples -/

/-- Scripts that append what they read to a list. -/
abbrev Ex := Stmt (List String) String

def x (s : String) : Use Var := ⟨.plain s.toList, true⟩
def put (s : String) (v : String) : Ex := .set (.plain s.toList) false [] fun _ _ => v
def show' (us : List (Use Var)) : Ex := .act us fun w l => w ++ l
def block (a : Ex) : Ex := .ite [] (fun w _ => (w, true)) a () .skip ()
def run' (s : Ex) : Option (Option (List String)) := (compile s).map fun p => (execute "" 30 p [] fun _ => "").map (·.1)
def mean' (s : Ex) : Option (List String) := (meaning "" 30 s [] fun _ => "").map (·.1)

/-- Two blocks use the same slots, an inner `A` is the outer `a`, and a `:local` variable is visible afterwards. -/
def sample : Ex :=
  .seq (put "a" "1") <| .seq (block (.seq (put "b" "2") (.seq (put "A" "3") (.set (.plain "l".toList) true [] fun _ _ => "4")))) <|
    .seq (block (.seq (put "c" "5") (show' [x "a", x "b", x "c", x "l"]))) (show' [x "a", x "c", x "L"])

/-- It meets the hypotheses. -/
example : LowerGlobals sample := by
  intro u _ n _ h
  simp [sample, declared, put, block, show'] at h
example : ∀ c sp, specify sample Sp.new = some (c, sp) → tidy c = true ∧ kept c := by
  intro c sp h
  injection h with h
  injection h with h _
  subst h
  refine ⟨rfl, ?_⟩
  intro u hu hm
  simp [reads, Sp.uses, put, block, show', x] at hu
  rcases hu with rfl | rfl | rfl | rfl | rfl | rfl | rfl <;> simp at hm
example : run' sample = some (some ["3", "", "5", "4", "3", "", "4"]) ∧ mean' sample = some ["3", "", "5", "4", "3", "", "4"] := by
  decide
example : (compile sample).map (·.2) = some 3 := by decide

/-- **Negation of C54.** A variable can have a value before it is set: `break` leaves the value of another variable
behind in its slot. -/
theorem break_keeps_value :
    let s : Ex := .seq (.loop [] (fun w _ => (w, true)) (.seq (put "secret" "1") (.exit false)) ())
      (block (.seq (.set (.plain "a".toList) false [x "a"] fun _ l => String.join l ++ "2") (show' [x "a"])))
    run' s = some (some ["12"]) ∧ mean' s = some ["2"] := by
  decide

/-- **Negation of C22 (2).** A `:local` variable is not read in `:replace`: the slot the program refers to does not
exist. -/
theorem replace_loses_local :
    let s : Ex := block (.seq (.set (.plain "y".toList) true [] fun _ _ => "b") (show' [⟨.plain "y".toList, false⟩]))
    run' s = some (some [""]) ∧ mean' s = some ["b"] ∧ (compile s).map (fun p => (ids p.1, p.2)) = some ([0, top], 1) := by
  decide

/-- **Negation of C55.** A global variable is not found if it is read with a capital letter. -/
theorem global_case_lost :
    let s : Ex := .seq (.global "x".toList) (.seq (put "x" "1") (show' [x "x", x "X"]))
    run' s = some (some ["1", ""]) ∧ mean' s = some ["1", "1"] := by
  decide

end Sieve.Scope
