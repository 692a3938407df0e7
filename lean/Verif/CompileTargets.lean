import Verif.CompileModel
import Verif.VmDisposition

/-!
# Jump targets of compiled scripts (C08)

For every token sequence the compiler accepts — well-formed in the sense of the grammar or not —
every jump of the result stays inside the instruction list, and every position recorded for later
resolution holds an instruction of the expected kind (so none of the `debug_assert!(false)` and no
out-of-range index is reached).
-/

namespace Sieve.Compile

variable {A T E : Type}

/-- The position an instruction may jump to. -/
def Op.target : Op A T E → Option Nat
  | .jmp t => some t
  | .jz t => some t
  | .jnz t => some t
  | .fep t => some t
  | .loop _ t => some t
  | _ => none

/-! ## Resolving jumps -/

/-- The two instructions agree except for the jump target. -/
def Op.alike : Op A T E → Op A T E → Prop
  | .jmp _, .jmp _ => True
  | .jz _, .jz _ => True
  | .jnz _, .jnz _ => True
  | .fep _, .fep _ => True
  | .loop e _, .loop e' _ => e = e'
  | a, b => a = b

/-- `ops'` is `ops` with some jumps redirected to `v`, among them the ones at `ps`, which are all
jumps of the kind `k`. -/
structure Redirected (ops ops' : List (Op A T E)) (v : Nat) (only : Nat → Prop) : Prop where
  length : ops'.length = ops.length
  alike : ∀ (p : Nat) (o : Op A T E), ops[p]? = some o → ∃ o', ops'[p]? = some o' ∧ o.alike o'
  same : ∀ p : Nat, ¬ only p → ops'[p]? = ops[p]?
  change : ∀ (p : Nat) (o : Op A T E), ops'[p]? = some o → ops[p]? = some o ∨ o.target = some v

theorem Op.alike_refl (o : Op A T E) : o.alike o := by cases o <;> simp [Op.alike]

theorem Op.alike_trans {a b c : Op A T E} (h : a.alike b) (h' : b.alike c) : a.alike c := by
  cases a <;> cases b <;> cases c <;> simp_all [Op.alike]

theorem Redirected.refl (ops : List (Op A T E)) (v only) : Redirected ops ops v only :=
  ⟨rfl, fun _ o h => ⟨o, h, o.alike_refl⟩, fun _ _ => rfl, fun _ _ h => .inl h⟩

theorem Redirected.trans {a b c : List (Op A T E)} {v p q} (h : Redirected a b v p)
    (h' : Redirected b c v q) : Redirected a c v (fun x => p x ∨ q x) := by
  refine ⟨by rw [h'.length, h.length], ?_, ?_, ?_⟩
  · intro x o hx
    obtain ⟨o1, h1, a1⟩ := h.alike x o hx
    obtain ⟨o2, h2, a2⟩ := h'.alike x o1 h1
    exact ⟨o2, h2, Op.alike_trans a1 a2⟩
  · intro x hx
    rw [h'.same x (fun hq => hx (.inr hq)), h.same x (fun hp => hx (.inl hp))]
  · intro x o hx
    rcases h'.change x o hx with h1 | h1
    · exact h.change x o h1
    · exact .inr h1

theorem redirected_set {ops : List (Op A T E)} {p v : Nat} {o o' : Op A T E} (h : ops[p]? = some o) (ha : o.alike o')
    (ht : o'.target = some v) : Redirected ops (ops.set p o') v (· = p) := by
  refine ⟨by simp, ?_, ?_, ?_⟩
  · intro x a hx
    by_cases e : x = p
    · subst e
      rw [h] at hx
      cases hx
      refine ⟨o', ?_, ha⟩
      rw [List.getElem?_set_self]
      exact (List.getElem?_eq_some_iff.mp h).1
    · refine ⟨a, ?_, a.alike_refl⟩
      rw [List.getElem?_set_ne (Ne.symm e)]
      exact hx
  · intro x hx
    rw [List.getElem?_set_ne (Ne.symm hx)]
  · intro x a hx
    by_cases e : x = p
    · subst e
      rw [List.getElem?_set_self (List.getElem?_eq_some_iff.mp h).1] at hx
      cases hx
      exact .inr ht
    · rw [List.getElem?_set_ne (Ne.symm e)] at hx
      exact .inl hx

theorem setTest_redirected (ops : List (Op A T E)) (v p) : Redirected ops (setTest v ops p) v (· = p) := by
  unfold setTest
  split
  · rename_i h; exact redirected_set h trivial rfl
  · rename_i h; exact redirected_set h trivial rfl
  · exact Redirected.refl ..

theorem setJmp_redirected (ops : List (Op A T E)) (v p) : Redirected ops (setJmp v ops p) v (· = p) := by
  unfold setJmp
  split
  · rename_i h; exact redirected_set h trivial rfl
  · exact Redirected.refl ..

theorem Redirected.mono {a b : List (Op A T E)} {v} {p q : Nat → Prop} (h : Redirected a b v p)
    (hpq : ∀ x, p x → q x) : Redirected a b v q :=
  ⟨h.length, h.alike, fun x hx => h.same x (fun hp => hx (hpq x hp)), h.change⟩

theorem patchTest_redirected (v) : ∀ (ps : List Nat) (ops : List (Op A T E)),
    Redirected ops (patchTest ops ps v) v (· ∈ ps)
  | [], ops => Redirected.refl ..
  | p :: ps, ops => by
    have h := (setTest_redirected ops v p).trans (patchTest_redirected v ps (setTest v ops p))
    exact h.mono (by simp)

theorem patchJmp_redirected (v) : ∀ (ps : List Nat) (ops : List (Op A T E)),
    Redirected ops (patchJmp ops ps v) v (· ∈ ps)
  | [], ops => Redirected.refl ..
  | p :: ps, ops => by
    have h := (setJmp_redirected ops v p).trans (patchJmp_redirected v ps (setJmp v ops p))
    exact h.mono (by simp)

theorem patchStart_redirected (ops : List (Op A T E)) (t p v) :
    Redirected ops (patchStart ops t p v) v (· = p) := by
  unfold patchStart
  split
  · rename_i h; exact redirected_set h trivial rfl
  · rename_i h; exact redirected_set h rfl rfl
  · rename_i h; exact redirected_set h trivial rfl
  · rename_i h; exact redirected_set h trivial rfl
  · exact Redirected.refl ..

/-- There is a conditional jump at `p`. -/
def TJump (ops : List (Op A T E)) (p : Nat) : Prop := ∃ t, ops[p]? = some (.jz t) ∨ ops[p]? = some (.jnz t)

def Jump (ops : List (Op A T E)) (p : Nat) : Prop := ∃ t, ops[p]? = some (.jmp t)

theorem TJump.of {ops ops' : List (Op A T E)} {v q p} (h : TJump ops p) (r : Redirected ops ops' v q) :
    TJump ops' p := by
  obtain ⟨t, h | h⟩ := h <;> obtain ⟨o', h1, h2⟩ := r.alike _ _ h <;> cases o' <;> simp [Op.alike] at h2
  · exact ⟨_, .inl h1⟩
  · exact ⟨_, .inr h1⟩

theorem Jump.of {ops ops' : List (Op A T E)} {v q p} (h : Jump ops p) (r : Redirected ops ops' v q) :
    Jump ops' p := by
  obtain ⟨t, h⟩ := h
  obtain ⟨o', h1, h2⟩ := r.alike _ _ h
  cases o' <;> simp [Op.alike] at h2
  exact ⟨_, h1⟩

theorem TJump.append {ops : List (Op A T E)} {p} (h : TJump ops p) (l) : TJump (ops ++ l) p := by
  obtain ⟨t, h⟩ := h
  have hl : p < ops.length := by rcases h with h | h <;> exact (List.getElem?_eq_some_iff.mp h).1
  exact ⟨t, by rwa [List.getElem?_append_left hl]⟩

theorem Jump.append {ops : List (Op A T E)} {p} (h : Jump ops p) (l) : Jump (ops ++ l) p := by
  obtain ⟨t, h⟩ := h
  have hl : p < ops.length := (List.getElem?_eq_some_iff.mp h).1
  exact ⟨t, by rwa [List.getElem?_append_left hl]⟩

theorem setTest_hit {ops : List (Op A T E)} {v p} (h : TJump ops p) :
    ∃ o, (setTest v ops p)[p]? = some o ∧ o.target = some v := by
  obtain ⟨t, h | h⟩ := h <;>
  · have hl := (List.getElem?_eq_some_iff.mp h).1
    simp only [setTest, h]
    exact ⟨_, List.getElem?_set_self hl, rfl⟩

theorem setJmp_hit {ops : List (Op A T E)} {v p} (h : Jump ops p) :
    ∃ o, (setJmp v ops p)[p]? = some o ∧ o.target = some v := by
  obtain ⟨t, h⟩ := h
  have hl := (List.getElem?_eq_some_iff.mp h).1
  simp only [setJmp, h]
  exact ⟨_, List.getElem?_set_self hl, rfl⟩

/-- After resolving, the jump at `p` leads to `v`. -/
def Leads (ops : List (Op A T E)) (p v : Nat) : Prop := ∃ o, ops[p]? = some o ∧ o.target = some v

theorem Leads.of {ops ops' : List (Op A T E)} {v q p} (h : Leads ops p v) (r : Redirected ops ops' v q) :
    Leads ops' p v := by
  obtain ⟨o, h, ht⟩ := h
  obtain ⟨o', h1, _⟩ := r.alike _ _ h
  refine ⟨o', h1, ?_⟩
  rcases r.change _ _ h1 with h2 | h2
  · rw [h] at h2
    cases h2
    exact ht
  · exact h2

theorem patchTest_hit {v : Nat} : ∀ (ps : List Nat) (ops : List (Op A T E)), (∀ p ∈ ps, TJump ops p) →
    ∀ p ∈ ps, Leads (patchTest ops ps v) p v
  | [], _, _, p, hp => by simp at hp
  | q :: ps, ops, h, p, hp => by
    have r := setTest_redirected ops v q
    have ht : ∀ p ∈ ps, TJump (setTest v ops q) p := fun p hp => (h p (by simp [hp])).of r
    show Leads (patchTest (setTest v ops q) ps v) p v
    rcases List.mem_cons.mp hp with rfl | hp
    · exact Leads.of (setTest_hit (h p (by simp))) (patchTest_redirected v ps _)
    · exact patchTest_hit ps _ ht p hp

theorem patchJmp_hit {v : Nat} : ∀ (ps : List Nat) (ops : List (Op A T E)), (∀ p ∈ ps, Jump ops p) →
    ∀ p ∈ ps, Leads (patchJmp ops ps v) p v
  | [], _, _, p, hp => by simp at hp
  | q :: ps, ops, h, p, hp => by
    have r := setJmp_redirected ops v q
    have ht : ∀ p ∈ ps, Jump (setJmp v ops q) p := fun p hp => (h p (by simp [hp])).of r
    show Leads (patchJmp (setJmp v ops q) ps v) p v
    rcases List.mem_cons.mp hp with rfl | hp
    · exact Leads.of (setJmp_hit (h p (by simp))) (patchJmp_redirected v ps _)
    · exact patchJmp_hit ps _ ht p hp

/-! ## Tests -/

/-- Every jump stays inside, except the ones still to be resolved. -/
def Inside (ops : List (Op A T E)) (pend : Nat → Prop) : Prop :=
  ∀ (p : Nat) (o : Op A T E) (t : Nat), ops[p]? = some o → o.target = some t → t ≤ ops.length ∨ pend p

theorem Inside.append {ops : List (Op A T E)} {pend : Nat → Prop} (h : Inside ops pend) (l : List (Op A T E))
    (hl : ∀ (i : Nat) (o : Op A T E) (t : Nat), l[i]? = some o → o.target = some t → t ≤ ops.length + l.length ∨ pend (ops.length + i)) :
    Inside (ops ++ l) pend := by
  intro p o t hp ht
  by_cases hlt : p < ops.length
  · rw [List.getElem?_append_left hlt] at hp
    rcases h p o t hp ht with h | h
    · left
      simp
      omega
    · exact .inr h
  · rw [List.getElem?_append_right (by omega)] at hp
    have := hl _ o t hp ht
    rwa [show ops.length + (p - ops.length) = p by omega, ← List.length_append] at this

theorem Inside.mono {ops : List (Op A T E)} {p q : Nat → Prop} (h : Inside ops p) (hpq : ∀ x, p x → q x) :
    Inside ops q := fun x o t hx ht => (h x o t hx ht).imp_right (hpq x)

/-- Resolving the jumps at `ps` (to a place inside) leaves only the others to be resolved. -/
theorem Inside.redirect {ops ops' : List (Op A T E)} {p q : Nat → Prop} {v only} (h : Inside ops p)
    (r : Redirected ops ops' v only) (hv : v ≤ ops.length)
    (hq : ∀ x, p x → q x ∨ Leads ops' x v) : Inside ops' q := by
  intro x o t hx ht
  rw [r.length]
  rcases r.change x o hx with h1 | h1
  · rcases h x o t h1 ht with h2 | h2
    · exact .inl h2
    · rcases hq x h2 with h3 | ⟨o', h3, h4⟩
      · exact .inr h3
      · rw [hx] at h3
        cases h3
        rw [ht] at h4
        cases h4
        exact .inl hv
  · rw [ht] at h1
    cases h1
    exact .inl hv

theorem atom_target {t : Tok A T E} {n op n'} (h : atom t n = some (op, n')) : op.target = none := by
  cases t <;> simp [atom] at h <;> obtain ⟨rfl, _⟩ := h <;> cases n <;> rfl

/-- The state of `parse_test` while tests are read: `js` are the recorded positions, innermost block
first; the instructions before `n0` stem from earlier commands. -/
structure Pending (n0 : Nat) (base : Nat → Prop) (ops : List (Op A T E)) (js : List (List Nat)) : Prop where
  start : n0 ≤ ops.length
  jump : ∀ p ∈ js.flatten, n0 ≤ p ∧ TJump ops p
  inside : Inside ops (fun p => base p ∨ p ∈ js.flatten)
  bottom : js.getLast? = some []

theorem Pending.append {n0 base} {ops : List (Op A T E)} {js} (h : Pending n0 base ops js)
    {op : Op A T E} (ho : op.target = none) : Pending n0 base (ops ++ [op]) js := by
  refine ⟨by simp; have := h.start; omega, fun p hp => ⟨(h.jump p hp).1, (h.jump p hp).2.append _⟩, ?_, h.bottom⟩
  refine h.inside.append _ ?_
  intro i o t hi ht
  have : i = 0 := by
    have := (List.getElem?_eq_some_iff.mp hi).1
    simpa using this
  subst this
  simp at hi
  subst hi
  rw [ho] at ht
  cases ht

theorem Pending.comma {n0 base} {ops : List (Op A T E)} {j js} (h : Pending n0 base ops (j :: js))
    {op : Op A T E} (ho : op = .jz maxPos ∨ op = .jnz maxPos) (hne : js ≠ []) :
    Pending n0 base (ops ++ [op]) ((j ++ [ops.length]) :: js) := by
  refine ⟨by simp; have := h.start; omega, ?_, ?_, ?_⟩
  · intro p hp
    simp only [List.flatten_cons, List.append_assoc, List.mem_append, List.mem_singleton] at hp
    by_cases e : p = ops.length
    · subst e
      refine ⟨h.start, maxPos, ?_⟩
      rcases ho with rfl | rfl <;> simp
    · have := h.jump p (by simp only [List.flatten_cons, List.mem_append]; tauto)
      exact ⟨this.1, this.2.append _⟩
  · refine Inside.append (h.inside.mono ?_) _ ?_
    · rintro x (hx | hx)
      · exact .inl hx
      · right
        simp only [List.flatten_cons, List.append_assoc, List.mem_append] at hx ⊢
        tauto
    · intro i o t hi _
      right
      right
      have : i = 0 := by
        have := (List.getElem?_eq_some_iff.mp hi).1
        simpa using this
      subst this
      simp
  · have := h.bottom
    cases js with
    | nil => exact absurd rfl hne
    | cons a l => simpa [List.getLast?_cons_cons] using this

theorem Pending.close {n0 base} {ops : List (Op A T E)} {j js} (h : Pending n0 base ops (j :: js)) (hne : js ≠ []) :
    Pending n0 base (patchTest ops j ops.length) js ∧
      ∀ p < n0, (patchTest ops j ops.length)[p]? = ops[p]? := by
  have r := patchTest_redirected (v := ops.length) j ops
  have hm : ∀ {p}, p ∈ js.flatten → p ∈ (j :: js).flatten := by
    intro p hp
    simp only [List.flatten_cons, List.mem_append]
    exact .inr hp
  have hj : ∀ {p}, p ∈ j → p ∈ (j :: js).flatten := by
    intro p hp
    simp only [List.flatten_cons, List.mem_append]
    exact .inl hp
  refine ⟨⟨by rw [r.length]; exact h.start, fun p hp => ⟨(h.jump p (hm hp)).1, (h.jump p (hm hp)).2.of r⟩, ?_, ?_⟩, ?_⟩
  · refine h.inside.redirect r (Nat.le_refl _) ?_
    rintro x (hx | hx)
    · exact .inl (.inl hx)
    · simp only [List.flatten_cons, List.mem_append] at hx
      rcases hx with hx | hx
      · exact .inr (patchTest_hit j ops (fun p hp => (h.jump p (hj hp)).2) x hx)
      · exact .inl (.inr hx)
  · have := h.bottom
    cases js with
    | nil => exact absurd rfl hne
    | cons a l => simpa [List.getLast?_cons_cons] using this
  · intro p hp
    apply r.same
    intro hmem
    have := (h.jump p (hj hmem)).1
    omega

theorem Pending.done {n0 base} {ops : List (Op A T E)} {j} (h : Pending n0 base ops [j]) : Inside ops base := by
  have := h.bottom
  simp at this
  subst this
  exact h.inside.mono (by simp)

theorem parse_targets (maxTests n0 : Nat) (base : Nat → Prop) (ts : List (Tok A T E)) (ops b st isNot)
    (hP : Pending n0 base ops ((b :: st).map TBlock.jmps)) (r : List (Tok A T E) × List (Op A T E))
    (h : parseLoop maxTests ts ops b st isNot = some r) :
    ∃ ops1, r.2 = ops1 ++ [.jz maxPos] ∧ n0 ≤ ops1.length ∧ (∀ p < n0, ops1[p]? = ops[p]?) ∧
      Inside ops1 base := by
  fun_induction parseLoop maxTests ts ops b st isNot with
  | case1 => simp at h
  | case2 ops b st isNot ts hc ih =>
    obtain ⟨ops1, e, hl, hp, hi⟩ := ih (Pending.comma hP (by cases b.isAll <;> simp) (by
      intro e
      simp at e
      simp [e] at hc)) h
    refine ⟨ops1, e, hl, ?_, hi⟩
    intro p hlt
    rw [hp p hlt, List.getElem?_append_left (by have := hP.start; omega)]
  | case3 => simp at h
  | case4 ops b st isNot ts ih => exact ih hP h
  | case5 ops b st isNot ts hc ih => exact ih hP h
  | case6 => simp at h
  | case7 ops b isNot ts hc prev st ops' he =>
    obtain ⟨hP', hs⟩ := hP.close (by simp)
    simp at he
    subst he
    simp only [Option.some.injEq] at h
    subst h
    exact ⟨ops', rfl, hP'.start, hs, hP'.done⟩
  | case8 ops b isNot ts hc prev st ops' he ih =>
    obtain ⟨hP', hs⟩ := hP.close (by simp)
    obtain ⟨ops1, e, hl, hp, hi⟩ := ih hP' h
    refine ⟨ops1, e, hl, ?_, hi⟩
    intro p hlt
    rw [hp p hlt, hs p hlt]
  | case9 ops b st isNot ts hc ih => exact ih hP h
  | case10 => simp at h
  | case11 ops b st isNot hc ts ih =>
    exact ih ⟨hP.start, by simpa using hP.jump, by simpa using hP.inside, by
      have := hP.bottom
      simpa [List.getLast?_cons_cons] using this⟩ h
  | case12 => simp at h
  | case13 => simp at h
  | case14 ops b st isNot hc ts ih =>
    exact ih ⟨hP.start, by simpa using hP.jump, by simpa using hP.inside, by
      have := hP.bottom
      simpa [List.getLast?_cons_cons] using this⟩ h
  | case15 => simp at h
  | case16 => simp at h
  | case17 => simp at h
  | case18 => simp at h
  | case19 ops b st isNot t ts _ _ _ _ _ _ op n' ha ts' hx he =>
    simp only [Option.some.injEq] at h
    subst h
    simp at he
    subst he
    have hP' := hP.append (atom_target ha)
    refine ⟨_, rfl, hP'.start, ?_, hP'.done⟩
    intro p hlt
    rw [List.getElem?_append_left (by have := hP.start; omega)]
  | case20 ops b st isNot t ts _ _ _ _ _ _ op n' ha ts' hx he ih =>
    obtain ⟨ops1, e, hl, hp, hi⟩ := ih (hP.append (atom_target ha)) h
    refine ⟨ops1, e, hl, ?_, hi⟩
    intro p hlt
    rw [hp p hlt, List.getElem?_append_left (by have := hP.start; omega)]

/-! ## Blocks -/

/-- `ops'` extends `ops`, possibly with other jump targets. -/
def Ext (ops ops' : List (Op A T E)) : Prop :=
  ∀ (p : Nat) (o : Op A T E), ops[p]? = some o → ∃ o', ops'[p]? = some o' ∧ o.alike o'

theorem Ext.refl (ops : List (Op A T E)) : Ext ops ops := fun _ o h => ⟨o, h, o.alike_refl⟩

theorem Ext.trans {a b c : List (Op A T E)} (h : Ext a b) (h' : Ext b c) : Ext a c := by
  intro p o hp
  obtain ⟨o1, h1, a1⟩ := h p o hp
  obtain ⟨o2, h2, a2⟩ := h' p o1 h1
  exact ⟨o2, h2, Op.alike_trans a1 a2⟩

theorem Redirected.ext {ops ops' : List (Op A T E)} {v q} (r : Redirected ops ops' v q) : Ext ops ops' := r.alike

theorem Ext.append (ops l : List (Op A T E)) : Ext ops (ops ++ l) := by
  intro p o h
  refine ⟨o, ?_, o.alike_refl⟩
  rw [List.getElem?_append_left (List.getElem?_eq_some_iff.mp h).1]
  exact h

theorem Jump.ext {ops ops' : List (Op A T E)} {p} (h : Jump ops p) (e : Ext ops ops') : Jump ops' p := by
  obtain ⟨t, h⟩ := h
  obtain ⟨o', h1, h2⟩ := e _ _ h
  cases o' <;> simp [Op.alike] at h2
  exact ⟨_, h1⟩

/-- The instruction that opens a block of type `t` is at `p`. -/
def Start (ops : List (Op A T E)) : BType → Nat → Prop
  | .if_, p | .elsif, p => ∃ t, ops[p]? = some (.jz t)
  | .fep, p => ∃ t, ops[p]? = some (.fep t)
  | .while_, p => ∃ e t, ops[p]? = some (.loop e t)
  | .else_, _ => True
  | .root, _ => False

theorem Start.ext {ops ops' : List (Op A T E)} {t p} (h : Start ops t p) (e : Ext ops ops') : Start ops' t p := by
  cases t <;> simp only [Start] at h ⊢
  · obtain ⟨t, h⟩ := h
    obtain ⟨o', h1, h2⟩ := e _ _ h
    cases o' <;> simp [Op.alike] at h2
    exact ⟨_, h1⟩
  · obtain ⟨t, h⟩ := h
    obtain ⟨o', h1, h2⟩ := e _ _ h
    cases o' <;> simp [Op.alike] at h2
    exact ⟨_, h1⟩
  · obtain ⟨x, t, h⟩ := h
    obtain ⟨o', h1, h2⟩ := e _ _ h
    cases o' <;> simp [Op.alike] at h2
    exact ⟨_, _, h1⟩
  · obtain ⟨t, h⟩ := h
    obtain ⟨o', h1, h2⟩ := e _ _ h
    cases o' <;> simp [Op.alike] at h2
    exact ⟨_, h1⟩

/-- What a block records about itself. -/
structure Own (ops : List (Op A T E)) (b : Block) : Prop where
  brk : ∀ p ∈ b.breakJmps, Jump ops p
  ifs : ∀ p ∈ b.ifJmps, Jump ops p
  loop : b.breakJmps ≠ [] → b.isLoop

theorem Own.ext {ops ops' : List (Op A T E)} {b} (h : Own ops b) (e : Ext ops ops') : Own ops' b :=
  ⟨fun p hp => (h.brk p hp).ext e, fun p hp => (h.ifs p hp).ext e, h.loop⟩

/-- The blocks, innermost first, fit the instructions. -/
def Nested (ops : List (Op A T E)) : List Block → Prop
  | [] => False
  | [b] => b.btype = .root ∧ Own ops b
  | c :: p :: rest => Own ops c ∧ Start ops c.btype p.lastStart ∧
      (p.ifJmps ≠ [] → c.btype = .elsif ∨ c.btype = .else_) ∧ Nested ops (p :: rest)

theorem Nested.ext {ops ops' : List (Op A T E)} (e : Ext ops ops') : ∀ {bs}, Nested ops bs → Nested ops' bs
  | [], h => h
  | [_], h => ⟨h.1, h.2.ext e⟩
  | _ :: _ :: _, h => ⟨h.1.ext e, h.2.1.ext e, h.2.2.1, Nested.ext e h.2.2.2⟩

theorem Nested.own {ops : List (Op A T E)} : ∀ {bs}, Nested ops bs → ∀ b ∈ bs, Own ops b
  | [], h, _, _ => h.elim
  | [_], h, b, hb => by simp at hb; subst hb; exact h.2
  | _ :: _ :: _, h, b, hb => by
    rcases List.mem_cons.mp hb with rfl | hb
    · exact h.1
    · exact Nested.own h.2.2.2 b hb

/-- The positions of jumps still to be resolved. -/
def Open : List Block → Nat → Prop
  | [], _ => False
  | [b], x => x ∈ b.breakJmps ∨ x ∈ b.ifJmps
  | c :: p :: rest, x => (x ∈ c.breakJmps ∨ x ∈ c.ifJmps) ∨ (c.btype ≠ .else_ ∧ x = p.lastStart) ∨
      Open (p :: rest) x

theorem addBreak_nested {ops : List (Op A T E)} {pos} (hp : Jump ops pos) : ∀ {bs : List Block} {i : Nat},
    Nested ops bs → (∀ b, bs[i]? = some b → b.isLoop) → Nested ops (addBreak bs i pos)
  | [], _, h, _ => h.elim
  | [b], i, h, hl => by
    cases i with
    | zero =>
      refine ⟨h.1, ?_, h.2.ifs, fun _ => hl b (by simp)⟩
      intro p hp'
      simp at hp'
      rcases hp' with hp' | rfl
      · exact h.2.brk p hp'
      · exact hp
    | succ i => simpa [addBreak] using h
  | c :: p :: rest, i, h, hl => by
    cases i with
    | zero =>
      refine ⟨⟨?_, h.1.ifs, fun _ => hl c (by simp)⟩, h.2.1, h.2.2.1, h.2.2.2⟩
      intro q hp'
      simp at hp'
      rcases hp' with hp' | rfl
      · exact h.1.brk q hp'
      · exact hp
    | succ i =>
      have ih := addBreak_nested hp (bs := p :: rest) (i := i) h.2.2.2 (fun b hb => hl b (by simpa using hb))
      cases i with
      | zero => exact ⟨h.1, h.2.1, h.2.2.1, ih⟩
      | succ i => exact ⟨h.1, h.2.1, h.2.2.1, ih⟩

theorem addBreak_open {pos x : Nat} : ∀ {bs : List Block} {i : Nat}, i < bs.length →
    (Open bs x ∨ x = pos) → Open (addBreak bs i pos) x
  | [], _, hi, _ => by simp at hi
  | [b], i, hi, h => by
    have : i = 0 := by simpa using hi
    subst this
    simp [addBreak, Open] at h ⊢
    tauto
  | c :: p :: rest, i, hi, h => by
    cases i with
    | zero =>
      simp [addBreak, Open] at h ⊢
      tauto
    | succ i =>
      have ih := fun h' => addBreak_open (pos := pos) (x := x) (bs := p :: rest) (i := i) (by simpa using hi) h'
      have e : ∃ p' rest', addBreak (p :: rest) i pos = p' :: rest' ∧ p'.lastStart = p.lastStart := by
        cases i with
        | zero => exact ⟨_, _, rfl, rfl⟩
        | succ i => exact ⟨_, _, rfl, rfl⟩
      obtain ⟨p', rest', e, hls⟩ := e
      have e' : addBreak (c :: p :: rest) (i + 1) pos = c :: p' :: rest' := by
        rw [← e]
        rfl
      rw [e']
      rw [e] at ih
      simp only [Open, hls] at h ih ⊢
      tauto

theorem findLabel_loop {l : String} : ∀ {bs : List Block} {k i n : Nat}, findLabel l bs k = some (i, n) →
    ∃ b, bs[i]? = some b ∧ b.isLoop
  | [], _, _, _, h => by simp [findLabel] at h
  | b :: bs, k, i, n, h => by
    simp only [findLabel] at h
    split at h
    · split at h
      · simp at h
        obtain ⟨rfl, _⟩ := h
        exact ⟨b, by simp, by simp [Block.isLoop, *]⟩
      · simp at h
        obtain ⟨j, h1, rfl⟩ := h
        obtain ⟨b', h2, h3⟩ := findLabel_loop h1
        exact ⟨b', by simpa using h2, h3⟩
    · simp at h
      obtain ⟨j, h1, rfl⟩ := h
      obtain ⟨b', h2, h3⟩ := findLabel_loop h1
      exact ⟨b', by simpa using h2, h3⟩

theorem findLoop_loop : ∀ {bs : List Block} {i f}, findLoop bs = some (i, f) →
    ∃ b, bs[i]? = some b ∧ b.isLoop
  | [], _, _, h => by simp [findLoop] at h
  | b :: bs, i, f, h => by
    simp only [findLoop] at h
    split at h
    · simp at h
      obtain ⟨rfl, _⟩ := h
      exact ⟨b, by simp, ‹_›⟩
    · simp at h
      obtain ⟨j, h1, rfl⟩ := h
      obtain ⟨b', h2, h3⟩ := findLoop_loop h1
      exact ⟨b', by simpa using h2, h3⟩

/-- The `while` instruction that `continue` jumps to exists. -/
theorem contJump_inside {ops : List (Op A T E)} : ∀ {bs : List Block} {found t : Nat}, Nested ops bs →
    contJump bs found = some (some t) →
    (found = 1 → ∀ b, bs.head? = some b → b.lastStart < ops.length) → t < ops.length
  | [], _, _, h, _, _ => h.elim
  | [b], found, t, h, hc, hf => by
    simp only [contJump, h.1] at hc
    simp at hc
    split at hc
    · simp at hc
      subst hc
      exact hf ‹_› b rfl
    · split at hc <;> simp at hc
  | c :: p :: rest, found, t, h, hc, hf => by
    rw [contJump] at hc
    split at hc
    · rename_i hw
      refine contJump_inside h.2.2.2 hc ?_
      intro _ b hb
      simp at hb
      subst hb
      have := h.2.1
      rw [hw] at this
      obtain ⟨e, t, h1⟩ := this
      exact (List.getElem?_eq_some_iff.mp h1).1
    · split at hc
      · simp at hc
        subst hc
        exact hf ‹_› c rfl
      · refine contJump_inside h.2.2.2 hc ?_
        intro h1
        contradiction

/-- The invariant of the main loop. -/
structure Inv (ts : List (Tok A T E)) (s : State A T E) : Prop where
  nested : Nested s.ops s.blocks
  inside : Inside s.ops (Open s.blocks)
  pending : ∀ b, s.blocks.head? = some b → b.ifJmps ≠ [] → isElse ts = true

theorem Inv.plain {ts ts' : List (Tok A T E)} {s : State A T E} {t : Tok A T E} (h : Inv (t :: ts) s)
    (ht : isElse (t :: ts) = false) {l : List (Op A T E)}
    (hl : ∀ (i : Nat) (o : Op A T E) (t : Nat), l[i]? = some o → o.target = some t → t ≤ s.ops.length + l.length) :
    Inv ts' { s with ops := s.ops ++ l } :=
  ⟨h.nested.ext (Ext.append _ _), h.inside.append _ (fun i o t hi ho => .inl (hl i o t hi ho)), by
    intro b hb hne
    have := h.pending b hb hne
    rw [ht] at this
    cases this⟩

theorem opened {ts : List (Tok A T E)} {s s' : State A T E} {lim : Limits} {cur stack} {new : Block}
    (hs : s.blocks = cur :: stack) (h : openBlock lim s new = some s')
    (hn : Nested s.ops s.blocks) (hi : Inside s.ops (fun p => Open s.blocks p ∨ (new.btype ≠ .else_ ∧ p = s.ops.length - 1)))
    (hst : Start s.ops new.btype (s.ops.length - 1)) (hb : new.breakJmps = []) (hj : new.ifJmps = [])
    (hif : cur.ifJmps ≠ [] → new.btype = .elsif ∨ new.btype = .else_) : Inv ts s' := by
  simp only [openBlock, hs] at h
  split at h
  · simp at h
    subst h
    have hn' : Nested s.ops ({ cur with lastStart := s.ops.length - 1 } :: stack) := by
      rw [hs] at hn
      cases stack with
      | nil => exact ⟨hn.1, hn.2.brk, hn.2.ifs, hn.2.loop⟩
      | cons p rest => exact ⟨⟨hn.1.brk, hn.1.ifs, hn.1.loop⟩, hn.2.1, hn.2.2.1, hn.2.2.2⟩
    refine ⟨⟨⟨by simp [hb], by simp [hj], by simp [hb]⟩, hst, hif, hn'⟩, ?_, ?_⟩
    · refine hi.mono ?_
      rw [hs]
      intro x hx
      show _ ∨ _ ∨ _
      rcases hx with hx | hx
      · right
        right
        cases stack with
        | nil => exact hx
        | cons p rest => exact hx
      · exact .inr (.inl hx)
    · intro b hb' hne
      simp at hb'
      subst hb'
      exact absurd hj hne
  · cases h

theorem Inv.cons {ts : List (Tok A T E)} {s} (h : Inv ts s) : ∃ cur stack, s.blocks = cur :: stack := by
  have := h.nested
  cases hs : s.blocks with
  | nil => rw [hs] at this; exact this.elim
  | cons c st => exact ⟨c, st, rfl⟩

theorem closed {ts : List (Tok A T E)} {s s' : State A T E} {clear} (h : Inv (.cclose clear :: ts) s)
    (hc : closeBlock s clear (isElse ts) = some s') : Inv ts s' := by
  obtain ⟨cur, stack, hs⟩ := h.cons
  cases stack with
  | nil => simp [closeBlock, hs] at hc
  | cons prev stack =>
    have hcur : cur.ifJmps = [] := by
      by_contra hne
      have := h.pending cur (by simp [hs]) hne
      simp [isElse] at this
    simp only [closeBlock, hs] at hc
    generalize ho : s.ops ++ List.map Op.plain clear.toList = ops at hc
    have hN : Nested ops (cur :: prev :: stack) := by
      rw [← ho, ← hs]
      exact h.nested.ext (Ext.append _ _)
    have hI : Inside ops (Open (cur :: prev :: stack)) := by
      rw [← ho, ← hs]
      refine h.inside.append _ ?_
      intro i o t hi ht
      simp at hi
      obtain ⟨a, _, rfl⟩ := hi
      cases ht
    have loop : ∀ bt, cur.btype = bt → (bt = .fep ∨ bt = .while_) →
        Inv ts ⟨patchJmp (patchStart (ops ++ [.jmp prev.lastStart]) bt prev.lastStart
          (ops ++ [Op.jmp prev.lastStart] : List (Op A T E)).length) cur.breakJmps
          (ops ++ [Op.jmp prev.lastStart] : List (Op A T E)).length, prev :: stack, .root⟩ := by
      intro bt hbt hor
      generalize hv : (ops ++ [Op.jmp prev.lastStart] : List (Op A T E)).length = v
      have hst := hN.2.1
      rw [hbt] at hst
      have r1 := patchStart_redirected (ops ++ [.jmp prev.lastStart]) bt prev.lastStart v
      have r2 := patchJmp_redirected v cur.breakJmps (patchStart (ops ++ [.jmp prev.lastStart]) bt prev.lastStart v)
      have hps : prev.lastStart < ops.length := by
        rcases hor with rfl | rfl
        · obtain ⟨t, h1⟩ := hst
          exact (List.getElem?_eq_some_iff.mp h1).1
        · obtain ⟨e, t, h1⟩ := hst
          exact (List.getElem?_eq_some_iff.mp h1).1
      have hl : Leads (patchStart (ops ++ [.jmp prev.lastStart]) bt prev.lastStart v) prev.lastStart v := by
        rcases hor with rfl | rfl
        · obtain ⟨t, h1⟩ := hst
          have h1' : (ops ++ [Op.jmp prev.lastStart])[prev.lastStart]? = some (.fep t) := by
            rw [List.getElem?_append_left hps]; exact h1
          simp only [patchStart, h1']
          exact ⟨_, List.getElem?_set_self (by simp; omega), rfl⟩
        · obtain ⟨e, t, h1⟩ := hst
          have h1' : (ops ++ [Op.jmp prev.lastStart])[prev.lastStart]? = some (.loop e t) := by
            rw [List.getElem?_append_left hps]; exact h1
          simp only [patchStart, h1']
          exact ⟨_, List.getElem?_set_self (by simp; omega), rfl⟩
      have hpi : prev.ifJmps = [] := by
        by_contra hne
        rcases hN.2.2.1 hne with h1 | h1 <;> rcases hor with rfl | rfl <;> rw [hbt] at h1 <;> cases h1
      refine ⟨Nested.ext ((Ext.append _ _).trans (r1.ext.trans r2.ext)) hN.2.2.2, ?_, ?_⟩
      · have hI' : Inside (ops ++ [Op.jmp prev.lastStart]) (Open (cur :: prev :: stack)) := by
          refine hI.append _ ?_
          intro i o t hi ht
          have : i = 0 := by
            have := (List.getElem?_eq_some_iff.mp hi).1
            simpa using this
          subst this
          simp at hi
          subst hi
          simp [Op.target] at ht
          subst ht
          left
          omega
        refine hI'.redirect (r1.trans r2) (by omega) ?_
        rintro x ((hx | hx) | ⟨_, rfl⟩ | hx)
        · right
          exact patchJmp_hit _ _ (fun p hp => (hN.1.brk p hp).ext ((Ext.append _ _).trans r1.ext)) x hx
        · simp [hcur] at hx
        · exact .inr (hl.of r2)
        · exact .inl hx
      · intro b hb hne
        simp at hb
        subst hb
        exact absurd hpi hne
    have nest : ∀ {o : List (Op A T E)} (js : List Nat), Nested o (prev :: stack) → (∀ p ∈ js, Jump o p) →
        Nested o ({ prev with ifJmps := js } :: stack) := by
      intro o js hn hjs
      cases stack with
      | nil => exact ⟨hn.1, hn.2.brk, hjs, hn.2.loop⟩
      | cons q rest => exact ⟨⟨hn.1.brk, hjs, hn.1.loop⟩, hn.2.1, hn.2.2.1, hn.2.2.2⟩
    have opn : ∀ {x} (js : List Nat), Open (prev :: stack) x →
        x ∈ prev.ifJmps ∨ Open ({ prev with ifJmps := js } :: stack) x := by
      intro x js hx
      cases stack with
      | nil => rcases hx with hx | hx <;> simp [Open, hx]
      | cons q rest => rcases hx with (hx | hx) | hx <;> simp [Open, hx]
    have opn' : ∀ {x} (js : List Nat), x ∈ js → Open ({ prev with ifJmps := js } :: stack) x := by
      intro x js hx
      cases stack with
      | nil => exact .inr hx
      | cons q rest => exact .inl (.inr hx)
    have hprev : ∀ p ∈ prev.ifJmps, Jump ops p := (hN.own prev (by simp)).ifs
    have hbrk : ∀ bt, cur.btype = bt → bt ≠ .fep → bt ≠ .while_ → cur.breakJmps = [] := by
      intro bt hbt h1 h2
      by_contra hne
      have := hN.1.loop hne
      simp [Block.isLoop, hbt, h1, h2] at this
    have cond : ∀ bt, cur.btype = bt → (bt = .if_ ∨ bt = .elsif) → ∀ nx, isElse ts = nx → ∀ s',
        (let jmps := if nx then prev.ifJmps ++ [ops.length] else prev.ifJmps
         let ops := if nx then ops ++ [.jmp maxPos] else ops
         let ops' := patchStart ops bt prev.lastStart ops.length
         if nx then some (⟨ops', { prev with ifJmps := jmps } :: stack, bt⟩ : State A T E)
         else some ⟨patchJmp ops' jmps ops.length, { prev with ifJmps := [] } :: stack, .root⟩) = some s' →
        Inv ts s' := by
      intro bt hbt hor nx hnx s' hs'
      have hb0 := hbrk bt hbt (by rcases hor with rfl | rfl <;> decide) (by rcases hor with rfl | rfl <;> decide)
      have hst : ∃ t, ops[prev.lastStart]? = some (.jz t) := by
        have := hN.2.1
        rw [hbt] at this
        rcases hor with rfl | rfl <;> exact this
      obtain ⟨t, hst⟩ := hst
      have hlt : prev.lastStart < ops.length := (List.getElem?_eq_some_iff.mp hst).1
      have hlead : ∀ l : List (Op A T E), ∀ v, Leads (patchStart (ops ++ l) bt prev.lastStart v) prev.lastStart v := by
        intro l v
        have h1' : (ops ++ l)[prev.lastStart]? = some (.jz t) := by
          rw [List.getElem?_append_left hlt]; exact hst
        rcases hor with rfl | rfl <;> simp only [patchStart, h1'] <;>
          exact ⟨_, List.getElem?_set_self (by simp; omega), rfl⟩
      cases nx with
      | true =>
        simp only [if_true, Option.some.injEq] at hs'
        subst hs'
        have r1 := patchStart_redirected (ops ++ [.jmp maxPos]) bt prev.lastStart (ops ++ [Op.jmp maxPos]).length
        have hE : Ext ops (patchStart (ops ++ [.jmp maxPos]) bt prev.lastStart (ops ++ [Op.jmp maxPos]).length) :=
          (Ext.append _ _).trans r1.ext
        refine ⟨nest _ (hN.2.2.2.ext hE) ?_, ?_, fun _ _ _ => hnx⟩
        · intro p hp
          simp at hp
          rcases hp with hp | rfl
          · exact (hprev p hp).ext hE
          · exact Jump.ext ⟨maxPos, by simp⟩ r1.ext
        · have hI' : Inside (ops ++ [Op.jmp maxPos]) (fun x => Open (cur :: prev :: stack) x ∨ x = ops.length) := by
            refine (hI.mono (fun _ => .inl)).append _ ?_
            intro i o t hi ht
            have : i = 0 := by
              have := (List.getElem?_eq_some_iff.mp hi).1
              simpa using this
            subst this
            exact .inr (.inr rfl)
          refine hI'.redirect r1 (Nat.le_refl _) ?_
          rintro x (((hx | hx) | ⟨_, rfl⟩ | hx) | rfl)
          · simp [hb0] at hx
          · simp [hcur] at hx
          · exact .inr (hlead _ _)
          · left
            rcases opn (prev.ifJmps ++ [ops.length]) hx with h1 | h1
            · exact opn' _ (by simp [h1])
            · exact h1
          · exact .inl (opn' _ (by simp))
      | false =>
        simp only [Bool.false_eq_true, if_false, Option.some.injEq] at hs'
        subst hs'
        have r1 := patchStart_redirected ops bt prev.lastStart ops.length
        have r2 := patchJmp_redirected ops.length prev.ifJmps (patchStart ops bt prev.lastStart ops.length)
        refine ⟨nest _ (hN.2.2.2.ext (r1.ext.trans r2.ext)) (by simp), ?_, ?_⟩
        · refine hI.redirect (r1.trans r2) (Nat.le_refl _) ?_
          rintro x ((hx | hx) | ⟨_, rfl⟩ | hx)
          · simp [hb0] at hx
          · simp [hcur] at hx
          · have := hlead [] ops.length
            rw [List.append_nil] at this
            exact .inr (this.of r2)
          · rcases opn [] hx with h1 | h1
            · exact .inr (patchJmp_hit _ _ (fun p hp => (hprev p hp).ext r1.ext) x h1)
            · exact .inl h1
        · intro b hb hne
          simp at hb
          subst hb
          exact absurd rfl hne
    split at hc
    · rename_i hbt
      rw [hbt] at hc
      simp only [Option.some.injEq] at hc
      subst hc
      exact loop _ hbt (.inl rfl)
    · rename_i hbt
      rw [hbt] at hc
      simp only [Option.some.injEq] at hc
      subst hc
      exact loop _ hbt (.inr rfl)
    · rename_i hbt
      exact cond _ hbt (.inl rfl) _ rfl _ (by rw [hbt] at hc; exact hc)
    · rename_i hbt
      exact cond _ hbt (.inr rfl) _ rfl _ (by rw [hbt] at hc; exact hc)
    · rename_i hbt
      simp only [Option.some.injEq] at hc
      subst hc
      have r2 := patchJmp_redirected ops.length prev.ifJmps ops
      refine ⟨nest _ (hN.2.2.2.ext r2.ext) (by simp), ?_, ?_⟩
      · refine hI.redirect r2 (Nat.le_refl _) ?_
        rintro x ((hx | hx) | ⟨hx, rfl⟩ | hx)
        · simp [hbrk _ hbt] at hx
        · simp [hcur] at hx
        · exact absurd hbt hx
        · rcases opn [] hx with h1 | h1
          · exact .inr (patchJmp_hit _ _ hprev x h1)
          · exact .inl h1
      · intro b hb hne
        simp at hb
        subst hb
        exact absurd rfl hne
    · rename_i hbt
      have := hN.2.1
      rw [hbt] at this
      exact this.elim

/-- What `parse_test` does to the state of the main loop. -/
theorem parsed {t : Tok A T E} {ts : List (Tok A T E)} {s : State A T E} {lim : Limits} {r}
    (h : Inv (t :: ts) s) (hp : parseTest lim.tests ts s.ops = some r) :
    ∃ ops1, r.2 = ops1 ++ [.jz maxPos] ∧ Nested r.2 s.blocks ∧
      Inside r.2 (fun p => Open s.blocks p ∨ p = ops1.length) := by
  obtain ⟨ops1, e, hl, hsame, hi⟩ := parse_targets lim.tests s.ops.length (Open s.blocks) ts s.ops _ _ _
    ⟨Nat.le_refl _, by simp, h.inside.mono (fun _ => .inl), by simp⟩ r hp
  have hE : Ext s.ops ops1 := by
    intro p o hp
    refine ⟨o, ?_, o.alike_refl⟩
    rw [hsame p (List.getElem?_eq_some_iff.mp hp).1]
    exact hp
  refine ⟨ops1, e, ?_, ?_⟩
  · rw [e]
    exact h.nested.ext (hE.trans (Ext.append _ _))
  · rw [e]
    refine (hi.mono (fun _ => .inl)).append _ ?_
    intro i o t hi ht
    have : i = 0 := by
      have := (List.getElem?_eq_some_iff.mp hi).1
      simpa using this
    subst this
    exact .inr (.inr rfl)

theorem nested_set {ops : List (Op A T E)} {cur : Block} {stack} (h : Nested ops (cur :: stack)) :
    Nested ops ({ cur with ifJmps := [] } :: stack) := by
  cases stack with
  | nil => exact ⟨h.1, h.2.brk, by simp, h.2.loop⟩
  | cons p rest => exact ⟨⟨h.1.brk, by simp, h.1.loop⟩, h.2.1, h.2.2.1, h.2.2.2⟩

theorem round_inv {lim : Limits} {s s' : State A T E} {t : Tok A T E} {ts ts'} (h : Inv (t :: ts) s)
    (hr : round lim s t ts = some (ts', s')) : Inv ts' s' := by
  obtain ⟨cur, stack, hs⟩ := h.cons
  have hcur : isElse (t :: ts) = false → cur.ifJmps = [] := by
    intro hf
    by_contra hne
    have := h.pending cur (by simp [hs]) hne
    rw [hf] at this
    cases this
  have brk : ∀ {l : List (Op A T E)} {i b} {ts'}, isElse (t :: ts) = false → s.blocks[i]? = some b → b.isLoop →
      (∀ o ∈ l, o.target = none) →
      Inv ts' { s with ops := s.ops ++ (l ++ [.jmp maxPos]), blocks := addBreak s.blocks i (s.ops.length + l.length) } := by
    intro l i b ts' hf hb hl ho
    refine ⟨addBreak_nested ⟨maxPos, ?_⟩ (h.nested.ext (Ext.append _ _)) ?_, ?_, ?_⟩
    · rw [← List.append_assoc, ← List.length_append]
      simp
    · intro b' hb'
      rw [hb] at hb'
      cases hb'
      exact hl
    · have hi := (List.getElem?_eq_some_iff.mp hb).1
      refine (h.inside.mono (fun x hx => addBreak_open hi (.inl hx))).append _ ?_
      intro k o t hk ht
      right
      refine addBreak_open hi (.inr ?_)
      rcases List.getElem?_append (l₁ := l) (l₂ := [Op.jmp maxPos]) (i := k) ▸ hk with hk'
      split at hk'
      · have := ho o (List.mem_of_getElem? hk')
        rw [this] at ht
        cases ht
      · have := (List.getElem?_eq_some_iff.mp hk').1
        simp at this
        omega
    · intro c hc hne
      exfalso
      apply hne
      rw [hs] at hc
      have : c.ifJmps = cur.ifJmps := by
        cases i <;> simp [addBreak] at hc <;> subst hc <;> rfl
      rw [this, hcur hf]
  cases t <;> simp only [round] at hr
  case kif =>
    split at hr
    · rename_i ts1 ops1 hp
      obtain ⟨ops0, e, hN, hI⟩ := parsed h hp
      simp only [Option.map_eq_some_iff, Prod.mk.injEq] at hr
      obtain ⟨s1, ho, rfl, rfl⟩ := hr
      have hc0 := hcur rfl
      have hsame : (s.blocks.modify 0 fun b => { b with ifJmps := [] }) = s.blocks := by
        rw [hs]
        cases cur
        simp at hc0
        subst hc0
        rfl
      rw [hsame] at ho
      refine opened (s := { s with ops := ops1 }) hs ho hN ?_ ?_ rfl rfl (fun hne => absurd hc0 hne)
      · refine hI.mono ?_
        rintro x (hx | rfl)
        · exact .inl hx
        · simp only at e
          exact .inr ⟨by simp [Block.new], by simp [e]⟩
      · simp only at e
        exact ⟨maxPos, by simp [e]⟩
    · cases hr
  case kelsif =>
    split at hr
    · split at hr
      · rename_i ts1 ops1 hp
        obtain ⟨ops0, e, hN, hI⟩ := parsed h hp
        simp only [Option.map_eq_some_iff, Prod.mk.injEq] at hr
        obtain ⟨s1, ho, rfl, rfl⟩ := hr
        refine opened (s := { s with ops := ops1 }) hs ho hN ?_ ?_ rfl rfl (fun _ => .inl rfl)
        · refine hI.mono ?_
          rintro x (hx | rfl)
          · exact .inl hx
          · simp only at e
            exact .inr ⟨by simp [Block.new], by simp [e]⟩
        · simp only at e
          exact ⟨maxPos, by simp [e]⟩
      · cases hr
    · cases hr
  case kelse =>
    split at hr
    · split at hr
      · simp only [Option.map_eq_some_iff, Prod.mk.injEq] at hr
        obtain ⟨s1, ho, rfl, rfl⟩ := hr
        exact opened hs ho h.nested (h.inside.mono (fun _ => .inl)) trivial rfl rfl (fun _ => .inr rfl)
      · cases hr
    · cases hr
  case kwhile e =>
    split at hr
    · simp only [Option.map_eq_some_iff, Prod.mk.injEq] at hr
      obtain ⟨s1, ho, rfl, rfl⟩ := hr
      refine opened (s := { s with ops := s.ops ++ [.loop e maxPos] }) hs ho (h.nested.ext (Ext.append _ _)) ?_ ?_ rfl rfl
        (fun hne => absurd (hcur rfl) hne)
      · refine (h.inside.mono (fun _ => .inl)).append _ ?_
        intro i o t hi ht
        have : i = 0 := by
          have := (List.getElem?_eq_some_iff.mp hi).1
          simpa using this
        subst this
        exact .inr (.inr ⟨by simp [Block.new], by simp⟩)
      · exact ⟨e, maxPos, by simp⟩
    · cases hr
  case kfep label =>
    split at hr
    · cases hr
    · split at hr
      · cases hr
      · split at hr
        · simp only [Option.map_eq_some_iff, Prod.mk.injEq] at hr
          obtain ⟨s1, ho, rfl, rfl⟩ := hr
          refine opened (s := { s with ops := s.ops ++ [.fepPush, .fep maxPos] }) hs ho (h.nested.ext (Ext.append _ _)) ?_ ?_ rfl rfl
            (fun hne => absurd (hcur rfl) hne)
          · refine (h.inside.mono (fun _ => .inl)).append _ ?_
            intro i o t hi ht
            have hi2 := (List.getElem?_eq_some_iff.mp hi).1
            have : i = 0 ∨ i = 1 := by simp at hi2; omega
            rcases this with rfl | rfl
            · simp at hi
              subst hi
              cases ht
            · exact .inr (.inr ⟨by simp [Block.new], by simp⟩)
          · exact ⟨maxPos, by simp⟩
        · cases hr
  case kbreak label =>
    cases label with
    | some l =>
      simp only at hr
      split at hr
      · cases hr
      · rename_i i n hf
        simp only [Option.some.injEq, Prod.mk.injEq] at hr
        obtain ⟨rfl, rfl⟩ := hr
        obtain ⟨b, hb, hl⟩ := findLabel_loop hf
        exact brk (l := [.fepPop n]) rfl hb hl (by simp [Op.target])
    | none =>
      simp only at hr
      split at hr
      · cases hr
      · rename_i i hf
        simp only [Option.some.injEq, Prod.mk.injEq] at hr
        obtain ⟨rfl, rfl⟩ := hr
        obtain ⟨b, hb, hl⟩ := findLoop_loop hf
        exact brk (l := [.fepPop 1]) rfl hb hl (by simp [Op.target])
      · rename_i i hf
        simp only [Option.some.injEq, Prod.mk.injEq] at hr
        obtain ⟨rfl, rfl⟩ := hr
        obtain ⟨b, hb, hl⟩ := findLoop_loop hf
        exact brk (l := []) rfl hb hl (by simp)
  case kcont =>
    split at hr
    · cases hr
    · simp only [Option.some.injEq, Prod.mk.injEq] at hr
      obtain ⟨rfl, rfl⟩ := hr
      have := h.plain (ts' := ts) rfl (l := []) (by simp)
      simpa using this
    · rename_i p hf
      simp only [Option.some.injEq, Prod.mk.injEq] at hr
      obtain ⟨rfl, rfl⟩ := hr
      have := contJump_inside h.nested hf (by simp)
      refine h.plain rfl ?_
      intro i o t hi ht
      have hi0 : i = 0 := by
        have := (List.getElem?_eq_some_iff.mp hi).1
        simpa using this
      subst hi0
      simp at hi
      subst hi
      simp [Op.target] at ht
      omega
  case kret =>
    simp only [Option.some.injEq, Prod.mk.injEq] at hr
    obtain ⟨rfl, rfl⟩ := hr
    rw [List.append_assoc]
    refine h.plain rfl ?_
    intro i o t hi ht
    have := List.mem_of_getElem? hi
    simp at this
    rcases this with ⟨_, rfl⟩ | rfl <;> cases ht
  case keval e =>
    simp only [Option.some.injEq, Prod.mk.injEq] at hr
    obtain ⟨rfl, rfl⟩ := hr
    refine h.plain rfl ?_
    intro i o t hi ht
    have := List.mem_of_getElem? hi
    simp at this
    subst this
    cases ht
  case act l =>
    simp only [Option.some.injEq, Prod.mk.injEq] at hr
    obtain ⟨rfl, rfl⟩ := hr
    refine h.plain rfl ?_
    intro i o t hi ht
    have := List.mem_of_getElem? hi
    simp at this
    obtain ⟨a, _, rfl⟩ := this
    cases ht
  case vac t a =>
    simp only [Option.some.injEq, Prod.mk.injEq] at hr
    obtain ⟨rfl, rfl⟩ := hr
    refine h.plain rfl ?_
    intro i o t hi ht
    have := List.mem_of_getElem? hi
    simp at this
    rcases this with rfl | rfl | rfl <;> simp [Op.target] at ht
    subst ht
    simp
  case cclose clear =>
    simp only [Option.map_eq_some_iff, Prod.mk.injEq] at hr
    obtain ⟨s1, ho, rfl, rfl⟩ := hr
    exact closed h ho
  all_goals cases hr

theorem rounds_inside {lim : Limits} : ∀ (n : Nat) (ts : List (Tok A T E)) (s : State A T E) (ops),
    Inv ts s → rounds lim n ts s = some ops → Inside ops (fun _ => False)
  | n, [], s, ops, h, hr => by
    have e : s.blocks.length = 1 ∧ s.ops = ops := by
      cases n <;> simpa [rounds] using hr
    obtain ⟨cur, stack, hs⟩ := h.cons
    have hst : stack = [] := by
      have := e.1
      rw [hs] at this
      simpa using this
    subst hst
    have hN := h.nested
    rw [hs] at hN
    have h1 : cur.breakJmps = [] := by
      by_contra hne
      have := hN.2.loop hne
      simp [Block.isLoop, hN.1] at this
    have h2 : cur.ifJmps = [] := by
      by_contra hne
      have := h.pending cur (by simp [hs]) hne
      simp [isElse] at this
    have hI := h.inside
    rw [hs, e.2] at hI
    exact hI.mono (by simp [Open, h1, h2])
  | 0, _ :: _, _, _, _, hr => by simp [rounds] at hr
  | n + 1, t :: ts, s, ops, h, hr => by
    rw [rounds] at hr
    split at hr
    · cases hr
    · rename_i ts' s' h1
      exact rounds_inside n ts' s' ops (round_inv h h1) hr

/-- **C08** (targets).  In every script the compiler accepts, each jump and each loop instruction
refers to a position inside the instruction list or to its end. -/
theorem compiled_in_range {lim : Limits} {ts : List (Tok A T E)} {ops : List (Op A T E)}
    (h : compile lim ts = some ops) : ∀ op ∈ ops, ∀ t, op.target = some t → t ≤ ops.length := by
  have hI : Inv ts (⟨[], [.new .root], .root⟩ : State A T E) := by
    refine ⟨⟨rfl, by simp [Block.new], by simp [Block.new], by simp [Block.new]⟩, ?_, ?_⟩
    · intro p o t hp
      simp at hp
    · intro b hb hne
      simp at hb
      subst hb
      simp [Block.new] at hne
  intro op hop t ht
  obtain ⟨p, hp⟩ := List.getElem?_of_mem hop
  rcases rounds_inside _ _ _ _ hI h p op t hp ht with h1 | h1
  · exact h1
  · exact h1.elim

end Sieve.Compile
