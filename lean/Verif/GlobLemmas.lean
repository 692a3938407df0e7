import Verif.GlobModel
import Verif.Prelude
/-
Correctness of the two matcher loops against a plain exhaustive search (`solveAt`).
-/
namespace Sieve.Glob

/-- First success among `f k, f (k+1), …` (`n` candidates). -/
def search (f : Nat → Option α) : Nat → Nat → Option α
  | _, 0 => none
  | k, n + 1 => (f k).or (search f (k + 1) n)

theorem search_eq_none {f : Nat → Option α} {k n : Nat} :
    search f k n = none ↔ ∀ j, k ≤ j → j < k + n → f j = none := by
  induction n generalizing k with
  | zero => simp [search]; intro j h1 h2; omega
  | succ n ih =>
    simp only [search, Option.or_eq_none_iff, ih]
    constructor
    · rintro ⟨h1, h2⟩ j hj1 hj2
      by_cases h : j = k
      · subst h; exact h1
      · exact h2 j (by omega) (by omega)
    · intro h
      exact ⟨h k (by omega) (by omega), fun j h1 h2 => h j (by omega) (by omega)⟩

theorem search_eq_some {f : Nat → Option α} {k n : Nat} {r : α} :
    search f k n = some r ↔
      ∃ j, k ≤ j ∧ j < k + n ∧ f j = some r ∧ ∀ i, k ≤ i → i < j → f i = none := by
  induction n generalizing k with
  | zero => simp [search]; intro j h1 h2; omega
  | succ n ih =>
    simp only [search, Option.or_eq_some_iff, ih]
    constructor
    · rintro (h | ⟨h0, j, h1, h2, h3, h4⟩)
      · exact ⟨k, by omega, by omega, h, fun i _ _ => by omega⟩
      · refine ⟨j, by omega, by omega, h3, fun i hi1 hi2 => ?_⟩
        by_cases h : i = k
        · subst h; exact h0
        · exact h4 i (by omega) hi2
    · rintro ⟨j, h1, h2, h3, h4⟩
      by_cases h : j = k
      · subst h; exact Or.inl h3
      · right
        exact ⟨h4 k (by omega) (by omega), j, by omega, by omega, h3,
          fun i hi1 hi2 => h4 i (by omega) hi2⟩

theorem search_map {f : Nat → Option α} {g : α → β} {k n : Nat} :
    (search f k n).map g = search (fun j => (f j).map g) k n := by
  induction n generalizing k with
  | zero => rfl
  | succ n ih => simp [search, ← ih, Option.map_or]

/-- Exhaustive search: positions of the pattern items `ps` when matching starts at `nx`,
every star being tried with the shortest text first. -/
def solveAt (v : List Char) : List PChar → Nat → Option (List Nat)
  | [], nx => if v.length ≤ nx then some [] else none
  | .char c :: ps, nx =>
    if v[nx]? = some c then (solveAt v ps (nx + 1)).map (nx :: ·) else none
  | .single :: ps, nx =>
    if nx < v.length then (solveAt v ps (nx + 1)).map (nx :: ·) else none
  | .many _ :: ps, nx =>
    search (fun k => (solveAt v ps k).map (k :: ·)) nx (v.length + 1 - nx)

def PChar.isMany : PChar → Bool
  | .many _ => true
  | _ => false

/-- A star-free segment followed by a star can only match with the star's continuation
starting at least `seg.length` further. -/
theorem solveAt_seg {v : List Char} {seg rest : List PChar} {n k : Nat}
    (hk : k ≤ v.length) (hseg : ∀ x ∈ seg, x.isMany = false)
    (h : solveAt v (seg ++ .many n :: rest) k ≠ none) :
    ∃ j, k + seg.length ≤ j ∧ j ≤ v.length ∧ solveAt v rest j ≠ none := by
  induction seg generalizing k with
  | nil =>
    simp only [List.nil_append, solveAt, ne_eq, search_eq_none, not_forall] at h
    obtain ⟨j, h1, h2, h3⟩ := h
    refine ⟨j, by simpa using h1, by omega, ?_⟩
    simpa using h3
  | cons x xs ih =>
    have hxs : ∀ y ∈ xs, y.isMany = false := fun y hy => hseg y (List.mem_cons_of_mem _ hy)
    have hx := hseg x (List.mem_cons_self ..)
    match x, hx with
    | .char c, _ =>
      simp only [List.cons_append, solveAt] at h
      split at h
      · rename_i hc
        have hlt : k < v.length := by
          rw [List.getElem?_eq_some_iff] at hc; exact hc.1
        obtain ⟨j, h1, h2, h3⟩ := ih (k := k + 1) (by omega) hxs (by simpa using h)
        exact ⟨j, by simp; omega, h2, h3⟩
      · exact absurd rfl h
    | .single, _ =>
      simp only [List.cons_append, solveAt] at h
      split at h
      · rename_i hc
        obtain ⟨j, h1, h2, h3⟩ := ih (k := k + 1) (by omega) hxs (by simpa using h)
        exact ⟨j, by simp; omega, h2, h3⟩
      · exact absurd rfl h

/-- What the machine will answer from a given state. -/
def fallback (p : List PChar) (v : List Char) (pos : List Nat) (npx nnx : Nat) :
    Option (List Nat) :=
  if 0 < nnx then
    search (fun k => (solveAt v (p.drop (npx + 1)) k).map (fun r => pos.take npx ++ k :: r))
      nnx (v.length + 1 - nnx)
  else none

def target (p : List PChar) (v : List Char) (s : CState) : Option (List Nat) :=
  ((solveAt v (p.drop s.m.px) s.m.nx).map (s.pos.take s.m.px ++ ·)).or
    (fallback p v s.pos s.m.npx s.m.nnx)

/-- Loop invariant. -/
structure Inv (p : List PChar) (v : List Char) (s : CState) : Prop where
  pos_len : s.pos.length = p.length
  px_le : s.m.px ≤ p.length
  nx_le : s.m.nx ≤ v.length
  star : s.m.nnx = 0 ∨
    (∃ n, p[s.m.npx]? = some (.many n)) ∧ s.m.nnx ≤ v.length + 1 ∧
    ((s.m.px = s.m.npx ∧ s.m.nx = s.m.nnx) ∨
     (s.m.npx < s.m.px ∧ s.m.nx + 1 + (s.m.npx + 1) = s.m.nnx + s.m.px ∧
      ∀ x ∈ (p.drop (s.m.npx + 1)).take (s.m.px - (s.m.npx + 1)), x.isMany = false))

/-- Termination measure. -/
def meas (p : List PChar) (v : List Char) (s : MState) : Nat :=
  2 * (v.length + 1 - s.nnx) * (p.length + 2) +
    (if 0 < s.nnx ∧ s.px = s.npx then 0 else p.length + 2) + (p.length - s.px)

theorem take_set_lt {l : List Nat} {i j : Nat} {x : Nat} (h : j ≤ i) :
    (l.set i x).take j = l.take j := by
  apply List.ext_getElem?
  intro k
  simp only [List.getElem?_take, List.getElem?_set]
  split
  · rw [if_neg (by omega)]
  · rfl

theorem take_succ_set {l : List Nat} {i : Nat} {x : Nat} (h : i < l.length) :
    (l.set i x).take (i + 1) = l.take i ++ [x] := by
  rw [List.take_succ_eq_append_getElem (by simpa using h), take_set_lt (le_refl _)]
  simp

theorem drop_eq_cons {p : List PChar} {i : Nat} {x : PChar} (h : p[i]? = some x) :
    p.drop i = x :: p.drop (i + 1) := by
  rw [List.getElem?_eq_some_iff] at h
  obtain ⟨hi, rfl⟩ := h
  exact List.drop_eq_getElem_cons hi

/-- If a new star has no continuation then the older backtrack point has none either. -/
theorem fallback_none {p : List PChar} {v : List Char} {s : CState} (hi : Inv p v s)
    {n : Nat} (hstar : p[s.m.px]? = some (.many n))
    (h : solveAt v (p.drop s.m.px) s.m.nx = none) :
    fallback p v s.pos s.m.npx s.m.nnx = none := by
  unfold fallback
  split
  next hpos =>
    rw [search_eq_none]
    intro k hk1 hk2
    rw [drop_eq_cons hstar] at h
    simp only [solveAt, search_eq_none, Option.map_eq_none_iff] at h
    simp only [Option.map_eq_none_iff]
    rcases hi.star with h0 | ⟨⟨m, hm⟩, hle, hcase | ⟨hlt, heq, hseg⟩⟩
    · omega
    · obtain ⟨e1, e2⟩ := hcase
      rw [← e1]
      exact h k (by omega) (by omega)
    · by_contra hne
      have hsplit : p.drop (s.m.npx + 1) =
          (p.drop (s.m.npx + 1)).take (s.m.px - (s.m.npx + 1)) ++
            .many n :: p.drop (s.m.px + 1) := by
        rw [← drop_eq_cons hstar]
        conv_lhs => rw [← List.take_append_drop (s.m.px - (s.m.npx + 1)) (p.drop (s.m.npx + 1))]
        rw [List.drop_drop]
        congr 2
        omega
      rw [hsplit] at hne
      obtain ⟨j, h1, h2, h3⟩ := solveAt_seg (by omega) hseg hne
      have hl : ((p.drop (s.m.npx + 1)).take (s.m.px - (s.m.npx + 1))).length
          = s.m.px - (s.m.npx + 1) := by
        have := hi.px_le
        simp; omega
      rw [hl] at h1
      exact h3 (h j (by omega) (by omega))
  next => rfl

theorem captureStart_inv (p : List PChar) (v : List Char) :
    Inv p v ⟨⟨0, 0, 0, 0⟩, List.replicate p.length 0⟩ :=
  ⟨by simp, by simp, by simp, Or.inl rfl⟩

def StepOk (p : List PChar) (v : List Char) (s : CState) (r : CState ⊕ Option (List Nat)) :
    Prop :=
  match r with
  | .inl s' => Inv p v s' ∧ target p v s' = target p v s ∧ meas p v s'.m < meas p v s.m
  | .inr r => r = target p v s

/-- One iteration preserves invariant and target and decreases the measure, or answers. -/
theorem cstep_spec (p : List PChar) (vv : List (Char × Char)) (s : CState)
    (hi : Inv p (vv.map Prod.fst) s) : StepOk p (vv.map Prod.fst) s (cstep p vv s) := by
  obtain ⟨⟨px, nx, npx, nnx⟩, pos⟩ := s
  generalize hv : vv.map Prod.fst = v at *
  have hlen : vv.length = v.length := by rw [← hv]; simp
  have hget : ∀ i : Nat, (vv[i]?).map Prod.fst = v[i]? := by intro i; rw [← hv]; simp
  have hpl := hi.pos_len
  have hpx := hi.px_le
  have hnx := hi.nx_le
  have hst := hi.star
  simp only at hpl hpx hnx hst
  -- the backtracking branch
  have hbt : solveAt v (p.drop px) nx = none →
      (∀ m, p[px]? ≠ some (.many m)) →
      StepOk p v ⟨⟨px, nx, npx, nnx⟩, pos⟩ (if 0 < nnx ∧ nnx ≤ vv.length then
          (Sum.inl ⟨⟨npx, nnx, npx, nnx⟩, pos⟩ : CState ⊕ Option (List Nat)) else .inr none) := by
    intro hnone hnm
    split
    next hc =>
        rw [hlen] at hc
        rcases hst with h0 | ⟨⟨m, hm⟩, hle, hcase | ⟨hlt, heq, hseg⟩⟩
        · omega
        · exact absurd (hcase.1 ▸ hm) (hnm m)
        · have hnpx : npx < p.length := by
            rw [List.getElem?_eq_some_iff] at hm; exact hm.1
          refine ⟨⟨hpl, hnpx.le, hc.2, Or.inr ⟨⟨m, hm⟩, by simp only; omega, Or.inl ⟨rfl, rfl⟩⟩⟩, ?_, ?_⟩
          · simp only [target, hnone, Option.map_none, Option.none_or]
            have : Option.map (fun x => pos.take npx ++ x) (solveAt v (p.drop npx) nnx) =
                fallback p v pos npx nnx := by
              rw [drop_eq_cons hm]
              simp only [fallback, if_pos hc.1, solveAt, search_map, Option.map_map]
              rfl
            rw [this]
            cases fallback p v pos npx nnx <;> rfl
          · simp only [meas]
            rw [if_pos ⟨hc.1, trivial⟩, if_neg (by omega)]
            omega
    next hc =>
        rw [hlen] at hc
        simp only [StepOk, target, hnone, Option.map_none, Option.none_or, fallback]
        split
        · rw [eq_comm, search_eq_none]
          intro j h1 h2
          exfalso
          omega
        · rfl
  unfold cstep
  simp only
  split
  next hcond =>
    split
    next c hc =>
      have hpxl : px < p.length := by rw [List.getElem?_eq_some_iff] at hc; exact hc.1
      rw [hget]
      split
      next hvc =>
        have hnl : nx < v.length := by rw [List.getElem?_eq_some_iff] at hvc; exact hvc.1
        refine ⟨⟨by simpa using hpl, by simp only; omega, by simp only; omega, ?_⟩, ?_, ?_⟩
        · rcases hst with h0 | ⟨⟨m, hm⟩, hle, hcase | ⟨hlt, heq, hseg⟩⟩
          · exact Or.inl h0
          · rw [← hcase.1, hc] at hm; simp at hm
          · refine Or.inr ⟨⟨m, hm⟩, hle, Or.inr ⟨by simp only; omega, by simp only; omega, ?_⟩⟩
            simp only
            intro x hx
            rw [show px + 1 - (npx + 1) = (px - (npx + 1)) + 1 by omega, List.take_succ_eq_append_getElem
              (by simp; omega)] at hx
            rw [List.mem_append] at hx
            rcases hx with hx | hx
            · exact hseg x hx
            · simp only [List.mem_singleton] at hx
              rw [hx, List.getElem_drop]
              have : p[npx + 1 + (px - (npx + 1))]? = some (.char c) := by
                rw [show npx + 1 + (px - (npx + 1)) = px by omega]; exact hc
              rw [List.getElem?_eq_some_iff] at this
              rw [this.2]; rfl
        · simp only [target]
          rw [drop_eq_cons hc]
          simp only [solveAt, if_pos hvc, Option.map_map]
          rw [take_succ_set (by omega)]
          have : fallback p v (pos.set px nx) npx nnx = fallback p v pos npx nnx := by
            simp only [fallback]
            rcases hst with h0 | ⟨_, _, hcase | ⟨hlt, _, _⟩⟩
            · simp [h0]
            · rw [take_set_lt (by omega)]
            · rw [take_set_lt (by omega)]
          rw [this]
          congr 1
          congr 1
          funext r
          simp
        · have hne : ¬ (0 < nnx ∧ px = npx) := by
            rintro ⟨h1, h2⟩
            rcases hst with h0 | ⟨⟨m, hm⟩, _⟩
            · omega
            · rw [← h2, hc] at hm; simp at hm
          have hne' : ¬ (0 < nnx ∧ px + 1 = npx) := by
            rintro ⟨h1, h2⟩
            rcases hst with h0 | ⟨_, _, hcase | ⟨hlt, _, _⟩⟩ <;> omega
          simp only [meas]
          rw [if_neg hne, if_neg hne']
          omega
      next hvc =>
        exact hbt (by rw [drop_eq_cons hc]; simp only [solveAt, if_neg hvc])
          (by rw [hc]; simp)
    next hc =>
      have hpxl : px < p.length := by rw [List.getElem?_eq_some_iff] at hc; exact hc.1
      split
      next hvc =>
        have hnl : nx < v.length := by omega
        refine ⟨⟨by simpa using hpl, by simp only; omega, by simp only; omega, ?_⟩, ?_, ?_⟩
        · rcases hst with h0 | ⟨⟨m, hm⟩, hle, hcase | ⟨hlt, heq, hseg⟩⟩
          · exact Or.inl h0
          · rw [← hcase.1, hc] at hm; simp at hm
          · refine Or.inr ⟨⟨m, hm⟩, hle, Or.inr ⟨by simp only; omega, by simp only; omega, ?_⟩⟩
            simp only
            intro x hx
            rw [show px + 1 - (npx + 1) = (px - (npx + 1)) + 1 by omega, List.take_succ_eq_append_getElem
              (by simp; omega)] at hx
            rw [List.mem_append] at hx
            rcases hx with hx | hx
            · exact hseg x hx
            · simp only [List.mem_singleton] at hx
              rw [hx, List.getElem_drop]
              have : p[npx + 1 + (px - (npx + 1))]? = some .single := by
                rw [show npx + 1 + (px - (npx + 1)) = px by omega]; exact hc
              rw [List.getElem?_eq_some_iff] at this
              rw [this.2]; rfl
        · simp only [target]
          rw [drop_eq_cons hc]
          simp only [solveAt, if_pos hnl, Option.map_map]
          rw [take_succ_set (by omega)]
          have : fallback p v (pos.set px nx) npx nnx = fallback p v pos npx nnx := by
            simp only [fallback]
            rcases hst with h0 | ⟨_, _, hcase | ⟨hlt, _, _⟩⟩
            · simp [h0]
            · rw [take_set_lt (by omega)]
            · rw [take_set_lt (by omega)]
          rw [this]
          congr 1
          congr 1
          funext r
          simp
        · have hne : ¬ (0 < nnx ∧ px = npx) := by
            rintro ⟨h1, h2⟩
            rcases hst with h0 | ⟨⟨m, hm⟩, _⟩
            · omega
            · rw [← h2, hc] at hm; simp at hm
          have hne' : ¬ (0 < nnx ∧ px + 1 = npx) := by
            rintro ⟨h1, h2⟩
            rcases hst with h0 | ⟨_, _, hcase | ⟨hlt, _, _⟩⟩ <;> omega
          simp only [meas]
          rw [if_neg hne, if_neg hne']
          omega
      next hvc =>
        exact hbt (by rw [drop_eq_cons hc]; simp only [solveAt]; rw [if_neg (by omega)])
          (by rw [hc]; simp)
    next m hc =>
      have hpxl : px < p.length := by rw [List.getElem?_eq_some_iff] at hc; exact hc.1
      refine ⟨⟨by simpa using hpl, by simp only; omega, hnx,
        Or.inr ⟨⟨m, hc⟩, by simp only; omega, Or.inr ⟨Nat.lt_succ_self _, by simp only, ?_⟩⟩⟩, ?_, ?_⟩
      · simp
      · have hfn := fallback_none hi hc
        simp only [target] at hfn ⊢
        have hunroll : (Option.map (fun x => (pos.set px nx).take (px + 1) ++ x)
              (solveAt v (p.drop (px + 1)) nx)).or (fallback p v (pos.set px nx) px (nx + 1)) =
            Option.map (fun x => pos.take px ++ x) (solveAt v (p.drop px) nx) := by
          rw [drop_eq_cons hc]
          simp only [solveAt, search_map, Option.map_map, fallback, Nat.zero_lt_succ, if_true]
          rw [show v.length + 1 - nx = (v.length + 1 - (nx + 1)) + 1 by omega]
          simp only [search]
          rw [take_succ_set (by omega), take_set_lt (le_refl _)]
          congr 1
          simp [Function.comp_def]
        rw [hunroll]
        cases hsol : solveAt v (p.drop px) nx with
        | none => simp [hfn hsol]
        | some r => simp
      · simp only [meas]
        rw [if_neg (by omega)]
        rcases hst with h0 | ⟨⟨m', hm⟩, hle, hcase | ⟨hlt, heq, hseg⟩⟩
        · subst h0
          have h1 : v.length + 1 - (nx + 1) ≤ v.length + 1 - 0 := by omega
          have h2 := Nat.mul_le_mul_right (p.length + 2) (Nat.mul_le_mul_left 2 h1)
          rw [if_neg (by omega)]
          omega
        · obtain ⟨e1, e2⟩ := hcase
          subst e1; subst e2
          have h1 : v.length + 1 - nx = (v.length + 1 - (nx + 1)) + 1 := by omega
          rw [h1]
          have : 2 * (v.length + 1 - (nx + 1) + 1) * (p.length + 2)
            = 2 * (v.length + 1 - (nx + 1)) * (p.length + 2) + 2 * (p.length + 2) := by
            ring
          rw [this]
          split <;> omega
        · have h1 : v.length + 1 - (nx + 1) ≤ v.length + 1 - nnx := by omega
          have h2 := Nat.mul_le_mul_right (p.length + 2) (Nat.mul_le_mul_left 2 h1)
          rw [if_neg (by omega)]
          omega
    next hc =>
      have hge : p.length ≤ px := by simpa using hc
      refine hbt ?_ (by rw [hc]; simp)
      rw [List.drop_eq_nil_of_le hge]
      simp only [solveAt]
      rw [if_neg (by omega)]
  next hcond =>
    have h1 : p.length = px := by omega
    have h2 : nx = v.length := by omega
    simp only [StepOk, target]
    rw [List.drop_eq_nil_of_le (by omega)]
    simp [solveAt, h2, ← h1, ← hpl]

theorem crun_spec (p : List PChar) (vv : List (Char × Char)) (n : Nat) (s : CState)
    (hi : Inv p (vv.map Prod.fst) s) (hm : meas p (vv.map Prod.fst) s.m < n) :
    crun p vv n s = some (target p (vv.map Prod.fst) s) := by
  induction n generalizing s with
  | zero => omega
  | succ n ih =>
    have h := cstep_spec p vv s hi
    unfold crun
    cases hs : cstep p vv s with
    | inl s' =>
      rw [hs] at h
      simp only [StepOk] at h
      simp only
      rw [ih s' h.1 (by omega), h.2.1]
    | inr r =>
      rw [hs] at h
      simp only [StepOk] at h
      simp [h]

theorem meas_start (p : List PChar) (v : List Char) :
    meas p v ⟨0, 0, 0, 0⟩ < 2 * (v.length + 2) * (p.length + 2) := by
  simp only [meas]
  rw [if_neg (by omega)]
  have : 2 * (v.length + 2) * (p.length + 2)
      = 2 * (v.length + 1 - 0) * (p.length + 2) + 2 * (p.length + 2) := by
    rw [Nat.sub_zero]; ring
  omega

theorem crun_start (p : List PChar) (vv : List (Char × Char)) :
    crun p vv (2 * (vv.length + 2) * (p.length + 2)) ⟨⟨0, 0, 0, 0⟩, List.replicate p.length 0⟩ =
      some (solveAt (vv.map Prod.fst) p 0) := by
  rw [crun_spec p vv _ _ (captureStart_inv p _)]
  · simp [target, fallback]
  · have := meas_start p (vv.map Prod.fst)
    simpa using this

/-- The non-capturing loop performs the same steps. -/
theorem mstep_cstep (p : List PChar) (v : List Char) (s : MState) (pos : List Nat) :
    mstep p v s = match cstep p (v.map fun c => (c, c)) ⟨s, pos⟩ with
      | .inl s' => .inl s'.m
      | .inr r => .inr r.isSome := by
  unfold mstep cstep backtrack
  simp only [List.length_map, List.getElem?_map, Option.map_map]
  have : (Prod.fst ∘ fun c : Char => (c, c)) = id := rfl
  rw [this]
  simp only [Option.map_id_fun, id_eq]
  split
  · split
    · split
      · rfl
      · split <;> rfl
    · split
      · rfl
      · split <;> rfl
    · rfl
    · split <;> rfl
  · rfl

theorem mrun_crun (p : List PChar) (v : List Char) (n : Nat) (s : MState) (pos : List Nat) :
    mrun p v n s = (crun p (v.map fun c => (c, c)) n ⟨s, pos⟩).map Option.isSome := by
  induction n generalizing s pos with
  | zero => rfl
  | succ n ih =>
    unfold mrun crun
    rw [mstep_cstep p v s pos]
    cases cstep p (v.map fun c => (c, c)) ⟨s, pos⟩ with
    | inl s' => simp only; rw [ih s'.m s'.pos]
    | inr r => rfl

theorem mrun_start (p : List PChar) (v : List Char) :
    mrun p v (fuel p v) ⟨0, 0, 0, 0⟩ = some (solveAt v p 0).isSome := by
  rw [mrun_crun p v _ _ (List.replicate p.length 0)]
  have := crun_start p (v.map fun c => (c, c))
  simp only [List.length_map, List.map_map] at this
  rw [fuel, this]
  have : (Prod.fst ∘ fun c : Char => (c, c)) = id := rfl
  simp [this]

end Sieve.Glob
