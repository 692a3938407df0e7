import Verif.MatchVarLemmas

/-!
# C103: a match variable is what the last successful match captured
-/

namespace Sieve.MatchVar

open Sieve.SetVar (Variable)

variable {W : Type}

/-! ## More can be read, less is undefined -/

/-- `rd'` reads at least what `rd` reads. -/
def Reads (rd rd' : Read) : Prop := ∀ p l n v, rd p l n = some v → rd' p l n = some v

theorem reads_mono {rd rd' : Read} (h : Reads rd rd') {p l} : ∀ {ns vs}, reads rd p l ns = some vs → reads rd' p l ns = some vs
  | [], vs, e => e
  | n :: ns, vs, e => by
    simp only [reads, bind, Option.bind_eq_some_iff, pure, Option.some.injEq] at e ⊢
    obtain ⟨v, h1, vs', h2, h3⟩ := e
    exact ⟨v, h _ _ _ _ h1, vs', reads_mono h h2, h3⟩

theorem semAtom_mono {rd rd' : Read} (h : Reads rd rd') {a : Atom W Nat Bool} {p w l r} (e : semAtom rd a p w l = some r) :
    semAtom rd' a p w l = some r := by
  simp only [semAtom, bind, Option.bind_eq_some_iff] at e ⊢
  obtain ⟨us, h1, vs, h2, h3⟩ := e
  exact ⟨us, reads_mono h h1, vs, reads_mono h h2, h3⟩

theorem semCond_mono {rd rd' : Read} (h : Reads rd rd') (c : Cond W Nat Bool) : ∀ {p w l r}, semCond rd c p w l = some r →
    semCond rd' c p w l = some r := by
  induction c with
  | atom a => intro p w l r e; exact semAtom_mono h e
  | not c ih =>
    intro p w l r e
    simp only [semCond, bind, Option.bind_eq_some_iff] at e ⊢
    obtain ⟨x, h1, h2⟩ := e
    exact ⟨x, ih h1, h2⟩
  | and c d ihc ihd =>
    intro p w l r e
    simp only [semCond] at e ⊢
    cases hc : semCond rd c p w l with
    | none => rw [hc] at e; cases e
    | some x =>
      obtain ⟨w1, l1, b⟩ := x
      rw [hc] at e
      rw [ihc hc]
      cases b with
      | true => exact ihd e
      | false => exact e
  | or c d ihc ihd =>
    intro p w l r e
    simp only [semCond] at e ⊢
    cases hc : semCond rd c p w l with
    | none => rw [hc] at e; cases e
    | some x =>
      obtain ⟨w1, l1, b⟩ := x
      rw [hc] at e
      rw [ihc hc]
      cases b with
      | false => exact ihd e
      | true => exact e

theorem sem_mono {rd rd' : Read} (h : Reads rd rd') : ∀ (fuel : Nat) (s : Stmt W) {p w l r}, sem rd fuel s p w l = some r →
    sem rd' fuel s p w l = some r := by
  intro fuel
  induction fuel with
  | zero => intro s p w l r e; cases s <;> simp [sem] at e
  | succ fuel ih =>
    intro s p w l r e
    cases s with
    | skip => exact e
    | exit again => exact e
    | seq a b =>
      simp only [sem] at e ⊢
      cases hc : sem rd fuel a p w l with
      | none => rw [hc] at e; cases e
      | some x =>
        obtain ⟨w1, l1, b⟩ := x
        rw [hc] at e
        rw [ih _ hc]
        cases b with
        | normal => exact ih _ e
        | brk => exact e
        | cont => exact e
    | act us f =>
      simp only [sem, Option.map_eq_some_iff] at e ⊢
      obtain ⟨vs, h1, h2⟩ := e
      exact ⟨vs, reads_mono h h1, h2⟩
    | delete us f =>
      simp only [sem, Option.map_eq_some_iff] at e ⊢
      obtain ⟨vs, h1, h2⟩ := e
      exact ⟨vs, reads_mono h h1, h2⟩
    | ite c a b =>
      simp only [sem] at e ⊢
      cases hc : semCond rd c p w l with
      | none => rw [hc] at e; cases e
      | some x =>
        obtain ⟨w1, l1, b⟩ := x
        rw [hc] at e
        rw [semCond_mono h _ hc]
        cases b <;> exact ih _ e
    | block a k =>
      simp only [sem] at e ⊢
      cases hc : sem rd fuel a p.enter w l with
      | none => rw [hc] at e; cases e
      | some x =>
        obtain ⟨w1, l1, b⟩ := x
        rw [hc] at e
        rw [ih _ hc]
        exact e
    | loop us g a =>
      simp only [sem] at e ⊢
      cases hr : reads rd p l us with
      | none => rw [hr] at e; cases e
      | some vs =>
        rw [hr] at e
        rw [reads_mono h hr]
        simp only at e ⊢
        cases hg : g w vs with
        | mk w1 b =>
          rw [hg] at e
          cases b with
          | false => exact e
          | true =>
            simp only at e ⊢
            cases hc : sem rd fuel a p w1 l with
            | none => rw [hc] at e; cases e
            | some x =>
              obtain ⟨w2, l2, b⟩ := x
              rw [hc] at e
              rw [ih _ hc]
              cases b with
              | brk => exact e
              | normal => exact ih _ e
              | cont => exact ih _ e

/-! ## The property -/

theorem guarded_rfc : Reads guarded rfc := by
  intro p l n v h
  cases l with
  | none => exact h
  | some s =>
    simp only [guarded] at h
    split at h
    · cases h
    · split at h
      · simp only [Option.map_eq_some_iff] at h
        obtain ⟨c, h1, rfl⟩ := h
        simp [rfc, h1]
      · cases h

/-- **C103.** A compiled script does what it should with match variables as prescribed, if every variable is read
under the conditions of `guarded`.  What is missing: the other cases, see the examples below; and a script which reads a
number beyond the texts captured. -/
theorem match_variables_partial (s : Stmt W) {p} (hc : compile s = some p) {fuel w w'} (h : meaning guarded fuel s w = some w') :
    execute fuel p w = some w' ∧ meaning rfc fuel s w = some w' := by
  simp only [compile, Option.map_eq_some_iff] at hc
  obtain ⟨⟨c, F⟩, hc, rfl⟩ := hc
  simp only [meaning, Option.map_eq_some_iff] at h
  obtain ⟨⟨w1, l1, e1⟩, h, rfl⟩ := h
  constructor
  · have hat : At St.new Place.start := ⟨rfl, rfl, by intro b hb; simp [St.new] at hb; subst hb; exact fun _ => rfl⟩
    have hk : Kept F none (List.replicate F.max (.str [])) := by
      refine ⟨by simp, ?_, by simp⟩
      intro _ i v hv
      rw [List.getElem?_replicate] at hv
      split at hv
      · injection hv with hv; exact hv.symm
      · cases hv
    obtain ⟨vs', e, _⟩ := stmt_runs fuel s hc hat (.refl F) hk h
    simp [execute, e]
  · simp [meaning, sem_mono guarded_rfc _ _ h]

/-! ## Scripts whose tests are outside of blocks -/

/-- No test has a match type. -/
def noTestC : Cond W Nat Bool → Prop
  | .atom a => a.tag = false
  | .not c => noTestC c
  | .and c d => noTestC c ∧ noTestC d
  | .or c d => noTestC c ∧ noTestC d

def noTest : Stmt W → Prop
  | .seq a b => noTest a ∧ noTest b
  | .delete _ _ => False
  | .ite c a b => noTestC c ∧ noTest a ∧ noTest b
  | .block a _ => noTest a
  | .loop _ _ a => noTest a
  | _ => True

def flatC : Cond W Nat Bool → Prop
  | .atom a => a.tag = true → a.post = []
  | .not c => flatC c
  | .and c d => flatC c ∧ flatC d
  | .or c d => flatC c ∧ flatC d

/-- All tests that have a match type are outside of blocks and have no match variables after it. -/
def flat : Stmt W → Prop
  | .seq a b => flat a ∧ flat b
  | .delete _ _ => False
  | .ite c a b => flatC c ∧ flat a ∧ flat b
  | .block a _ => noTest a
  | .loop _ _ a => noTest a
  | _ => True

/-- As prescribed, if there is such a text or there was no match. -/
def present : Read := fun _ l n =>
  match l with
  | none => some (.str [])
  | some s => s.caps[n]?.map .str

/-- A place in a flat script, with what is known about the last match. -/
structure Flat (p : Place) (l : Option Success) : Prop where
  kinds : ∀ k ∈ p.kinds, k = true
  blocks : ∃ d, p.blocks = List.replicate d [] ++ [List.range p.kinds.length]
  last : ∀ s, l = some s → s.fresh = true ∧ s.test < p.kinds.length

theorem find_replicate (d : Nat) (b : List Nat) (hb : b ≠ []) :
    (List.replicate d [] ++ [b]).find? (fun b => !b.isEmpty) = some b := by
  have : b.isEmpty = false := by cases b <;> simp_all
  simp [List.find?_append, this]

theorem flat_read {p l} (h : Flat p l) {n v} (hr : present p l n = some v) : guarded p l n = some v := by
  cases l with
  | none => exact hr
  | some s =>
    obtain ⟨hf, ht⟩ := h.last s rfl
    obtain ⟨d, hb⟩ := h.blocks
    have hne : List.range p.kinds.length ≠ [] := by
      intro e; simp at e; rw [e] at ht; simp at ht
    simp only [guarded, hb, find_replicate d _ hne]
    rw [if_pos]
    · exact hr
    · refine ⟨hf, List.mem_range.2 ht, fun t h' => ?_⟩
      have hlt := List.mem_range.1 h'
      rw [List.getElem?_eq_getElem hlt, h.kinds _ (List.getElem_mem hlt)]

theorem flat_reads {p l} (h : Flat p l) : ∀ {ns vs}, reads present p l ns = some vs → reads guarded p l ns = some vs
  | [], vs, e => e
  | n :: ns, vs, e => by
    simp only [reads, bind, Option.bind_eq_some_iff, pure, Option.some.injEq] at e ⊢
    obtain ⟨v, h1, vs', h2, h3⟩ := e
    exact ⟨v, flat_read h h1, vs', flat_reads h h2, h3⟩

theorem afterCond_noTest (c : Cond W Nat Bool) (h : noTestC c) : ∀ p, afterCond c p = p := by
  induction c with
  | atom a => intro p; simp only [noTestC] at h; simp [afterCond, afterAtom, h]
  | not c ih => exact ih h
  | and c d ihc ihd => intro p; rw [afterCond, ihc h.1, ihd h.2]
  | or c d ihc ihd => intro p; rw [afterCond, ihc h.1, ihd h.2]

theorem after_noTest (s : Stmt W) (h : noTest s) : ∀ p, after s p = p := by
  induction s with
  | skip => intro p; rfl
  | seq a b iha ihb => intro p; rw [after, iha h.1, ihb h.2]
  | act us f => intro p; rfl
  | delete us f => exact h.elim
  | ite c a b iha ihb => intro p; rw [after, afterCond_noTest c h.1, iha h.2.1, ihb h.2.2]
  | block a k iha => intro p; rw [after, iha h]; rfl
  | loop us g a iha => exact iha h
  | exit again => intro p; rfl

theorem noTest_cond (c : Cond W Nat Bool) (hc : noTestC c) : ∀ {p w l w' l' b}, Flat p l →
    semCond present c p w l = some (w', l', b) → l' = l ∧ semCond guarded c p w l = some (w', l', b) := by
  induction c with
  | atom a =>
    intro p w l w' l' b hf h
    simp only [noTestC] at hc
    simp only [semCond, semAtom, bind, Option.bind_eq_some_iff, hc] at h ⊢
    obtain ⟨us, h1, vs, h2, h3⟩ := h
    refine ⟨?_, us, flat_reads hf h1, vs, flat_reads hf h2, h3⟩
    split at h3 <;> simp only [pure, Option.some.injEq, Prod.mk.injEq] at h3
    · exact h3.2.1.symm
    · exact h3.2.1.symm
  | not c ih =>
    intro p w l w' l' b hf h
    simp only [semCond, bind, Option.bind_eq_some_iff, pure, Option.some.injEq] at h ⊢
    obtain ⟨⟨w1, l1, b1⟩, h1, h2⟩ := h
    simp only [Prod.mk.injEq] at h2
    obtain ⟨rfl, rfl, rfl⟩ := h2
    obtain ⟨e, h3⟩ := ih hc hf h1
    exact ⟨e, _, h3, rfl⟩
  | and c d ihc ihd =>
    intro p w l w' l' b hf h
    simp only [semCond] at h ⊢
    cases h1 : semCond present c p w l with
    | none => rw [h1] at h; cases h
    | some x =>
      obtain ⟨w1, l1, b1⟩ := x
      rw [h1] at h
      obtain ⟨rfl, h2⟩ := ihc hc.1 hf h1
      rw [h2]
      cases b1 with
      | true =>
        simp only [afterCond_noTest c hc.1] at h ⊢
        exact ihd hc.2 hf h
      | false =>
        simp only [Option.some.injEq, Prod.mk.injEq] at h
        obtain ⟨rfl, rfl, rfl⟩ := h
        exact ⟨rfl, rfl⟩
  | or c d ihc ihd =>
    intro p w l w' l' b hf h
    simp only [semCond] at h ⊢
    cases h1 : semCond present c p w l with
    | none => rw [h1] at h; cases h
    | some x =>
      obtain ⟨w1, l1, b1⟩ := x
      rw [h1] at h
      obtain ⟨rfl, h2⟩ := ihc hc.1 hf h1
      rw [h2]
      cases b1 with
      | false =>
        simp only [afterCond_noTest c hc.1] at h ⊢
        exact ihd hc.2 hf h
      | true =>
        simp only [Option.some.injEq, Prod.mk.injEq] at h
        obtain ⟨rfl, rfl, rfl⟩ := h
        exact ⟨rfl, rfl⟩

theorem Flat.enter {p l} (h : Flat p l) : Flat p.enter l := by
  obtain ⟨h1, ⟨d, h2⟩, h3⟩ := h
  exact ⟨h1, ⟨d + 1, by simp [Place.enter, h2, List.replicate_succ]⟩, h3⟩

theorem noTest_sem : ∀ (fuel : Nat) (s : Stmt W), noTest s → ∀ {p w l w' l' e}, Flat p l →
    sem present fuel s p w l = some (w', l', e) → l' = l ∧ sem guarded fuel s p w l = some (w', l', e) := by
  intro fuel
  induction fuel with
  | zero => intro s _ p w l w' l' e _ h; cases s <;> simp [sem] at h
  | succ fuel ih =>
    intro s hn p w l w' l' e hf h
    cases s with
    | skip => simp only [sem, Option.some.injEq, Prod.mk.injEq] at h ⊢; exact ⟨h.2.1.symm, h⟩
    | exit again => simp only [sem, Option.some.injEq, Prod.mk.injEq] at h ⊢; exact ⟨h.2.1.symm, h⟩
    | delete us f => exact hn.elim
    | act us f =>
      simp only [sem, Option.map_eq_some_iff, Prod.mk.injEq] at h ⊢
      obtain ⟨vs, h1, h2⟩ := h
      exact ⟨h2.2.1.symm, vs, flat_reads hf h1, h2⟩
    | seq a b =>
      simp only [sem] at h ⊢
      cases h1 : sem present fuel a p w l with
      | none => rw [h1] at h; cases h
      | some x =>
        obtain ⟨w1, l1, e1⟩ := x
        rw [h1] at h
        obtain ⟨rfl, h2⟩ := ih a hn.1 hf h1
        rw [h2]
        cases e1 with
        | normal =>
          simp only [after_noTest a hn.1] at h ⊢
          exact ih b hn.2 hf h
        | brk =>
          simp only [Option.some.injEq, Prod.mk.injEq] at h
          obtain ⟨rfl, rfl, rfl⟩ := h
          exact ⟨rfl, rfl⟩
        | cont =>
          simp only [Option.some.injEq, Prod.mk.injEq] at h
          obtain ⟨rfl, rfl, rfl⟩ := h
          exact ⟨rfl, rfl⟩
    | ite c a b =>
      simp only [sem, afterCond_noTest c hn.1, after_noTest a hn.2.1] at h ⊢
      cases h1 : semCond present c p w l with
      | none => rw [h1] at h; cases h
      | some x =>
        obtain ⟨w1, l1, b1⟩ := x
        rw [h1] at h
        obtain ⟨rfl, h2⟩ := noTest_cond c hn.1 hf h1
        rw [h2]
        cases b1 with
        | true => exact ih a hn.2.1 hf h
        | false => exact ih b hn.2.2 hf h
    | block a k =>
      simp only [sem, after_noTest a hn] at h ⊢
      cases h1 : sem present fuel a p.enter w l with
      | none => rw [h1] at h; cases h
      | some x =>
        obtain ⟨w1, l1, e1⟩ := x
        rw [h1] at h
        obtain ⟨rfl, h2⟩ := ih a hn hf.enter h1
        rw [h2]
        have e0 : ended p.enter.blocks.head? l1 = l1 := rfl
        cases e1 with
        | normal =>
          simp only [e0] at h ⊢
          simp only [Option.some.injEq, Prod.mk.injEq] at h
          obtain ⟨rfl, rfl, rfl⟩ := h
          exact ⟨rfl, rfl⟩
        | brk =>
          simp only [Option.some.injEq, Prod.mk.injEq] at h
          obtain ⟨rfl, rfl, rfl⟩ := h
          exact ⟨rfl, rfl⟩
        | cont =>
          simp only [Option.some.injEq, Prod.mk.injEq] at h
          obtain ⟨rfl, rfl, rfl⟩ := h
          exact ⟨rfl, rfl⟩
    | loop us g a =>
      simp only [sem] at h ⊢
      cases hr : reads present p l us with
      | none => rw [hr] at h; cases h
      | some vs =>
        rw [hr] at h
        rw [flat_reads hf hr]
        simp only at h ⊢
        cases hg : g w vs with
        | mk w1 b =>
          rw [hg] at h
          cases b with
          | false =>
            simp only [Option.some.injEq, Prod.mk.injEq] at h
            obtain ⟨rfl, rfl, rfl⟩ := h
            exact ⟨rfl, rfl⟩
          | true =>
            simp only at h ⊢
            cases h1 : sem present fuel a p w1 l with
            | none => rw [h1] at h; cases h
            | some x =>
              obtain ⟨w2, l2, e2⟩ := x
              rw [h1] at h
              obtain ⟨rfl, h2⟩ := ih a hn hf h1
              rw [h2]
              cases e2 with
              | brk =>
                simp only [Option.some.injEq, Prod.mk.injEq] at h
                obtain ⟨rfl, rfl, rfl⟩ := h
                exact ⟨rfl, rfl⟩
              | normal => exact ih (.loop us g a) hn hf h
              | cont => exact ih (.loop us g a) hn hf h

/-- Outside of blocks. -/
structure Outer (p : Place) (l : Option Success) : Prop where
  kinds : ∀ k ∈ p.kinds, k = true
  blocks : p.blocks = [List.range p.kinds.length]
  last : ∀ s, l = some s → s.fresh = true ∧ s.test < p.kinds.length

theorem Outer.flat {p l} (h : Outer p l) : Flat p l := ⟨h.kinds, ⟨0, h.blocks⟩, h.last⟩

theorem note_done_outer {p : Place} {l} (h : Outer p l) {l'} (hl : ∀ s, l' = some s → s.fresh = true ∧ s.test ≤ p.kinds.length) :
    Outer (p.note.done true) l' := by
  refine ⟨?_, ?_, ?_⟩
  · intro k hk
    simp only [Place.done, Place.note, h.blocks, List.mem_append, List.mem_singleton] at hk
    rcases hk with hk | hk
    · exact h.kinds k hk
    · exact hk
  · simp [Place.done, Place.note, h.blocks, List.range_succ]
  · intro s hs
    obtain ⟨h1, h2⟩ := hl s hs
    refine ⟨h1, ?_⟩
    simp only [Place.done, Place.note, h.blocks, List.length_append, List.length_singleton]
    omega

theorem flat_afterCond (c : Cond W Nat Bool) : ∀ {p l}, Outer p l → Outer (afterCond c p) l := by
  induction c with
  | atom a =>
    intro p l h
    rw [afterCond, afterAtom]
    split
    · exact note_done_outer h fun s hs => ⟨(h.last s hs).1, by have := (h.last s hs).2; omega⟩
    · exact h
  | not c ih => intro p l h; exact ih h
  | and c d ihc ihd => intro p l h; exact ihd (ihc h)
  | or c d ihc ihd => intro p l h; exact ihd (ihc h)

theorem flat_after (s : Stmt W) : flat s → ∀ {p l}, Outer p l → Outer (after s p) l := by
  induction s with
  | skip => intro _ p l h; exact h
  | seq a b iha ihb => intro hf p l h; exact ihb hf.2 (iha hf.1 h)
  | act us f => intro _ p l h; exact h
  | delete us f => intro hf; exact hf.elim
  | ite c a b iha ihb => intro hf p l h; exact ihb hf.2.2 (iha hf.2.1 (flat_afterCond c h))
  | block a k iha => intro hf p l h; rw [after_noTest (.block a k) hf]; exact h
  | loop us g a iha => intro hf p l h; rw [after_noTest (.loop us g a) hf]; exact h
  | exit again => intro _ p l h; exact h

theorem flat_cond (c : Cond W Nat Bool) (hc : flatC c) : ∀ {p w l w' l' b}, Outer p l →
    semCond present c p w l = some (w', l', b) → Outer (afterCond c p) l' ∧ semCond guarded c p w l = some (w', l', b) := by
  induction c with
  | atom a =>
    intro p w l w' l' b hf h
    simp only [flatC] at hc
    simp only [semCond, semAtom, bind, Option.bind_eq_some_iff] at h ⊢
    obtain ⟨us, h1, vs, h2, h3⟩ := h
    have h2' : reads guarded (if a.tag = true then p.note else p) l a.post = some vs := by
      by_cases ht : a.tag = true
      · rw [hc ht] at h2 ⊢; exact h2
      · rw [if_neg ht] at h2 ⊢; exact flat_reads hf.flat h2
    refine ⟨?_, us, flat_reads hf.flat h1, vs, h2', h3⟩
    rw [afterCond, afterAtom]
    split at h3 <;> simp only [pure, Option.some.injEq, Prod.mk.injEq] at h3 <;> obtain ⟨rfl, rfl, rfl⟩ := h3
    · exact flat_afterCond (.atom a) hf
    · split
      · exact note_done_outer hf fun s hs => by
          simp only [Option.some.injEq] at hs
          subst hs
          exact ⟨rfl, Nat.le_refl _⟩
      · exact hf
  | not c ih =>
    intro p w l w' l' b hf h
    simp only [semCond, bind, Option.bind_eq_some_iff, pure, Option.some.injEq] at h ⊢
    obtain ⟨⟨w1, l1, b1⟩, h1, h2⟩ := h
    simp only [Prod.mk.injEq] at h2
    obtain ⟨rfl, rfl, rfl⟩ := h2
    obtain ⟨e, h3⟩ := ih hc hf h1
    exact ⟨e, _, h3, rfl⟩
  | and c d ihc ihd =>
    intro p w l w' l' b hf h
    simp only [semCond] at h ⊢
    cases h1 : semCond present c p w l with
    | none => rw [h1] at h; cases h
    | some x =>
      obtain ⟨w1, l1, b1⟩ := x
      rw [h1] at h
      obtain ⟨o, h2⟩ := ihc hc.1 hf h1
      rw [h2]
      cases b1 with
      | true => exact ihd hc.2 o h
      | false =>
        simp only [Option.some.injEq, Prod.mk.injEq] at h
        obtain ⟨rfl, rfl, rfl⟩ := h
        exact ⟨flat_afterCond d o, rfl⟩
  | or c d ihc ihd =>
    intro p w l w' l' b hf h
    simp only [semCond] at h ⊢
    cases h1 : semCond present c p w l with
    | none => rw [h1] at h; cases h
    | some x =>
      obtain ⟨w1, l1, b1⟩ := x
      rw [h1] at h
      obtain ⟨o, h2⟩ := ihc hc.1 hf h1
      rw [h2]
      cases b1 with
      | false => exact ihd hc.2 o h
      | true =>
        simp only [Option.some.injEq, Prod.mk.injEq] at h
        obtain ⟨rfl, rfl, rfl⟩ := h
        exact ⟨flat_afterCond d o, rfl⟩

theorem flat_sem : ∀ (fuel : Nat) (s : Stmt W), flat s → ∀ {p w l w' l' e}, Outer p l →
    sem present fuel s p w l = some (w', l', e) → Outer (after s p) l' ∧ sem guarded fuel s p w l = some (w', l', e) := by
  intro fuel
  induction fuel with
  | zero => intro s _ p w l w' l' e _ h; cases s <;> simp [sem] at h
  | succ fuel ih =>
    intro s hn p w l w' l' e hf h
    cases s with
    | skip =>
      have := noTest_sem (fuel + 1) (.skip : Stmt W) trivial hf.flat h
      exact ⟨by rw [this.1]; exact hf, this.2⟩
    | exit again =>
      have := noTest_sem (fuel + 1) (.exit again : Stmt W) trivial hf.flat h
      exact ⟨by rw [this.1]; exact hf, this.2⟩
    | delete us f => exact hn.elim
    | act us f =>
      have := noTest_sem (fuel + 1) (.act us f : Stmt W) trivial hf.flat h
      exact ⟨by rw [this.1]; exact hf, this.2⟩
    | block a k =>
      have := noTest_sem (fuel + 1) (.block a k) hn hf.flat h
      exact ⟨by rw [this.1, after_noTest (.block a k) hn]; exact hf, this.2⟩
    | loop us g a =>
      have := noTest_sem (fuel + 1) (.loop us g a) hn hf.flat h
      exact ⟨by rw [this.1, after_noTest (.loop us g a) hn]; exact hf, this.2⟩
    | seq a b =>
      simp only [sem] at h ⊢
      cases h1 : sem present fuel a p w l with
      | none => rw [h1] at h; cases h
      | some x =>
        obtain ⟨w1, l1, e1⟩ := x
        rw [h1] at h
        obtain ⟨o, h2⟩ := ih a hn.1 hf h1
        rw [h2]
        cases e1 with
        | normal => exact ih b hn.2 o h
        | brk =>
          simp only [Option.some.injEq, Prod.mk.injEq] at h
          obtain ⟨rfl, rfl, rfl⟩ := h
          exact ⟨flat_after b hn.2 o, rfl⟩
        | cont =>
          simp only [Option.some.injEq, Prod.mk.injEq] at h
          obtain ⟨rfl, rfl, rfl⟩ := h
          exact ⟨flat_after b hn.2 o, rfl⟩
    | ite c a b =>
      simp only [sem] at h ⊢
      cases h1 : semCond present c p w l with
      | none => rw [h1] at h; cases h
      | some x =>
        obtain ⟨w1, l1, b1⟩ := x
        rw [h1] at h
        obtain ⟨o, h2⟩ := flat_cond c hn.1 hf h1
        rw [h2]
        cases b1 with
        | true =>
          obtain ⟨o', h3⟩ := ih a hn.2.1 o h
          exact ⟨flat_after b hn.2.2 o', h3⟩
        | false => exact ih b hn.2.2 (flat_after a hn.2.1 o) h

/-- **C103, simple scripts.** If all tests that have a match type are those of `if` and `elsif` outside of blocks, and
have no match variables after it, then a match variable is what the last successful match captured, at any place and
any nesting, provided that it captured a text of this number. -/
theorem match_variables_flat_partial (s : Stmt W) (hs : flat s) {p} (hc : compile s = some p) {fuel w w'}
    (h : meaning present fuel s w = some w') : execute fuel p w = some w' ∧ meaning rfc fuel s w = some w' := by
  refine match_variables_partial s hc ?_
  simp only [meaning, Option.map_eq_some_iff] at h ⊢
  obtain ⟨⟨w1, l1, e1⟩, h, rfl⟩ := h
  refine ⟨_, (flat_sem fuel s hs ⟨by simp [Place.start], rfl, by simp⟩ h).2, rfl⟩

/-! ## What is accepted -/

def usedC : Cond W Nat Bool → List Nat
  | .atom a => a.pre ++ a.post
  | .not c => usedC c
  | .and c d => usedC c ++ usedC d
  | .or c d => usedC c ++ usedC d

/-- The match variables of a script. -/
def used : Stmt W → List Nat
  | .seq a b => used a ++ used b
  | .act us _ => us
  | .delete us _ => us
  | .ite c a b => usedC c ++ used a ++ used b
  | .block a _ => used a
  | .loop us _ a => us ++ used a
  | _ => []

theorem var_some (n : Nat) (st : St) : (var n st).isSome = decide (n < 63) := by
  unfold var maxMatch
  simp only
  split
  · rename_i h
    split <;> simp [h]
  · rename_i h
    simp [h]

theorem vars_some : ∀ (ns : List Nat) (st : St), (vars ns st).isSome = ns.all (· < 63)
  | [], _ => rfl
  | n :: ns, st => by
    have h := var_some n st
    simp only [vars, bind, List.all_cons]
    cases hv : var n st with
    | none => rw [hv] at h; simp at h; simp [h]
    | some x =>
      rw [hv] at h
      have h2 := vars_some ns x.2
      simp only [Option.bind_some]
      cases hv2 : vars ns x.2 with
      | none => rw [hv2] at h2; simp only [Option.isSome_none] at h2; simp [← h2]
      | some y => rw [hv2] at h2; simp only [Option.isSome_some] at h2 h; simp [← h2, ← h]

theorem atom_some (a : Atom W Nat Bool) (st : St) : (atom a st).isSome = (a.pre ++ a.post).all (· < 63) := by
  have h := vars_some a.pre st
  simp only [atom, bind, List.all_append]
  cases hv : vars a.pre st with
  | none => rw [hv] at h; simp only [Option.isSome_none] at h; simp [← h]
  | some x =>
    rw [hv] at h
    simp only [Option.isSome_some] at h
    simp only [Option.bind_some, ← h, Bool.true_and]
    split
    · have h2 := vars_some a.post (noteTest x.2)
      cases hv2 : vars a.post (noteTest x.2) with
      | none => rw [hv2] at h2; simpa using h2
      | some y => rw [hv2] at h2; simpa [pure] using h2
    · have h2 := vars_some a.post x.2
      cases hv2 : vars a.post x.2 with
      | none => rw [hv2] at h2; simpa using h2
      | some y => rw [hv2] at h2; simpa [pure] using h2

theorem bind_some {α β : Type} {o : Option α} {f : α → Option β} {b c : Bool} (h : o.isSome = b) (hf : ∀ x, (f x).isSome = c) :
    (o.bind f).isSome = (b && c) := by
  cases o with
  | none => simp at h; simp [h]
  | some x => simp only [Option.isSome_some] at h; simp [← h, hf]

theorem bind_pure_some {α β : Type} {o : Option α} {f : α → β} {b : Bool} (h : o.isSome = b) :
    (o.bind fun x => some (f x)).isSome = b := by
  rw [bind_some h (c := true) fun _ => rfl, Bool.and_true]

theorem cond_some (c : Cond W Nat Bool) : ∀ st : St, (cond c st).isSome = (usedC c).all (· < 63) := by
  induction c with
  | atom a => intro st; simp only [cond, bind, pure]; exact bind_pure_some (atom_some a st)
  | not c ih => intro st; simp only [cond, bind, pure]; exact bind_pure_some (ih st)
  | and c d ihc ihd =>
    intro st
    simp only [cond, bind, pure, usedC, List.all_append]
    exact bind_some (ihc st) fun x => bind_pure_some (ihd x.2)
  | or c d ihc ihd =>
    intro st
    simp only [cond, bind, pure, usedC, List.all_append]
    exact bind_some (ihc st) fun x => bind_pure_some (ihd x.2)

theorem stmt_some (s : Stmt W) : ∀ st : St, (stmt s st).isSome = (used s).all (· < 63) := by
  induction s with
  | skip => intro st; rfl
  | exit again => intro st; rfl
  | act us f => intro st; simp only [stmt, bind, pure]; exact bind_pure_some (vars_some us st)
  | delete us f => intro st; simp only [stmt, bind, pure]; exact bind_pure_some (vars_some us _)
  | seq a b iha ihb =>
    intro st
    simp only [stmt, bind, pure, used, List.all_append]
    exact bind_some (iha st) fun x => bind_pure_some (ihb x.2)
  | ite c a b iha ihb =>
    intro st
    simp only [stmt, bind, pure, used, List.all_append, Bool.and_assoc]
    exact bind_some (cond_some c st) fun x => bind_some (iha x.2) fun y => bind_pure_some (ihb y.2)
  | block a k iha => intro st; simp only [stmt, bind, pure, used]; exact bind_pure_some (iha _)
  | loop us g a iha =>
    intro st
    simp only [stmt, bind, pure, used, List.all_append]
    exact bind_some (vars_some us st) fun x => bind_pure_some (iha x.2)

/-- **C103.** A script is rejected on account of its match variables exactly if one of them is above 62. -/
theorem match_number_iff (s : Stmt W) : (compile s).isSome ↔ ∀ n ∈ used s, n < 63 := by
  rw [compile, Option.isSome_map, stmt_some, List.all_eq_true]
  simp

/-! ### How many match variables a script has -/

/-- What follows keeps the number below `N`. -/
def Keeps (N : Nat) {α : Type} (o : Option (α × St)) : Prop := ∀ r, o = some r → r.2.max ≤ N

theorem Keeps.bind {N : Nat} {α β : Type} {o : Option (α × St)} {f : α × St → Option (β × St)} (h : Keeps N o)
    (hf : ∀ r, r.2.max ≤ N → Keeps N (f r)) : Keeps N (o.bind f) := by
  intro r e
  obtain ⟨a, ha, hr⟩ := Option.bind_eq_some_iff.1 e
  exact hf a (h a ha) r hr

theorem Keeps.some {N : Nat} {α : Type} {a : α} {st : St} (h : st.max ≤ N) : Keeps N (some (a, st)) := by
  rintro r ⟨⟩; exact h

theorem var_keeps {N n : Nat} (hn : n < N) {st : St} (h : st.max ≤ N) : Keeps N (var n st) := by
  unfold var
  simp only
  split
  · split
    · exact Keeps.some (Nat.max_le.2 ⟨h, hn⟩)
    · exact Keeps.some h
  · intro r e; cases e

theorem vars_keeps {N : Nat} : ∀ {ns : List Nat}, (∀ n ∈ ns, n < N) → ∀ {st : St}, st.max ≤ N → Keeps N (vars ns st)
  | [], _, _, h => Keeps.some h
  | n :: ns, hn, st, h => (var_keeps (hn n (by simp)) h).bind fun r hr =>
    (vars_keeps (fun m hm => hn m (by simp [hm])) hr).bind fun _ hs => Keeps.some hs

theorem note_max (st : St) : (noteTest st).max = st.max := by
  unfold noteTest
  split <;> rfl

theorem close_max (st : St) : (close st).2.max = st.max := by
  unfold close
  split <;> rfl

theorem atom_keeps {N : Nat} {a : Atom W Nat Bool} (hn : ∀ n ∈ a.pre ++ a.post, n < N) {st : St} (h : st.max ≤ N) :
    Keeps N (atom a st) := by
  refine (vars_keeps (fun n hm => hn n (List.mem_append_left _ hm)) h).bind fun r hr => ?_
  simp only
  split
  · refine (vars_keeps (fun n hm => hn n (List.mem_append_right _ hm)) ?_).bind fun _ hs => Keeps.some hs
    rw [note_max]; exact hr
  · exact (vars_keeps (fun n hm => hn n (List.mem_append_right _ hm)) hr).bind fun _ hs => Keeps.some hs

theorem cond_keeps {N : Nat} (c : Cond W Nat Bool) : (∀ n ∈ usedC c, n < N) → ∀ {st : St}, st.max ≤ N → Keeps N (cond c st) := by
  induction c with
  | atom a => exact fun hn st h => (atom_keeps hn h).bind fun _ hs => Keeps.some hs
  | not c ih => exact fun hn st h => (ih hn h).bind fun _ hs => Keeps.some hs
  | and c d ihc ihd =>
    exact fun hn st h => (ihc (fun n m => hn n (List.mem_append_left _ m)) h).bind fun _ hr =>
      (ihd (fun n m => hn n (List.mem_append_right _ m)) hr).bind fun _ hs => Keeps.some hs
  | or c d ihc ihd =>
    exact fun hn st h => (ihc (fun n m => hn n (List.mem_append_left _ m)) h).bind fun _ hr =>
      (ihd (fun n m => hn n (List.mem_append_right _ m)) hr).bind fun _ hs => Keeps.some hs

theorem stmt_keeps {N : Nat} (s : Stmt W) : (∀ n ∈ used s, n < N) → ∀ {st : St}, st.max ≤ N → Keeps N (stmt s st) := by
  induction s with
  | skip => exact fun _ _ h => Keeps.some h
  | exit again => exact fun _ _ h => Keeps.some h
  | act us f => exact fun hn st h => (vars_keeps hn h).bind fun _ hs => Keeps.some hs
  | delete us f =>
    exact fun hn st h => (vars_keeps hn (by rw [note_max]; exact h)).bind fun _ hs => Keeps.some hs
  | seq a b iha ihb =>
    exact fun hn st h => (iha (fun n m => hn n (List.mem_append_left _ m)) h).bind fun _ hr =>
      (ihb (fun n m => hn n (List.mem_append_right _ m)) hr).bind fun _ hs => Keeps.some hs
  | ite c a b iha ihb =>
    exact fun hn st h => (cond_keeps c (fun n m => hn n (by simp [used, m])) h).bind fun _ hr =>
      (iha (fun n m => hn n (by simp [used, m])) hr).bind fun _ hs =>
      (ihb (fun n m => hn n (by simp [used, m])) hs).bind fun _ ht => Keeps.some ht
  | block a k iha =>
    exact fun hn st h => (iha hn (st := «open» st) h).bind fun _ hs => Keeps.some (by rw [close_max]; exact hs)
  | loop us g a iha =>
    exact fun hn st h => (vars_keeps (fun n m => hn n (List.mem_append_left _ m)) h).bind fun _ hr =>
      (iha (fun n m => hn n (List.mem_append_right _ m)) hr).bind fun _ hs => Keeps.some hs

/-- **C103.** No more match variables than the script can read: if it names none from `N` on, it has at most `N`. -/
theorem match_count_le (s : Stmt W) {p} (hc : compile s = some p) {N : Nat} (hn : ∀ n ∈ used s, n < N) : p.2.2 ≤ N := by
  unfold compile at hc
  obtain ⟨r, hr, rfl⟩ := Option.map_eq_some_iff.1 hc
  exact stmt_keeps s hn (Nat.zero_le _) r hr

/-- So there are never more than 63, for which the bits of a number suffice. -/
theorem match_count (s : Stmt W) {p} (hc : compile s = some p) : p.2.2 ≤ 63 :=
  match_count_le s hc ((match_number_iff s).1 (by rw [hc]; rfl))

/-- What follows leaves the state as it is. -/
def Same (st : St) {α : Type} (o : Option (α × St)) : Prop := ∀ r, o = some r → r.2 = st

theorem Same.bind {st st' : St} {α β : Type} {o : Option (α × St)} {f : α × St → Option (β × St)} (h : Same st o)
    (hf : ∀ a, Same st' (f (a, st))) : Same st' (o.bind f) := by
  intro r e
  obtain ⟨⟨a, t⟩, ha, hr⟩ := Option.bind_eq_some_iff.1 e
  obtain rfl : t = st := h _ ha
  exact hf a r hr

theorem Same.some {α : Type} {a : α} {st : St} : Same st (some (a, st)) := by
  rintro r ⟨⟩; rfl

theorem markIn_idle (n : Nat) : ∀ (bs : List Block) (ms : List (Option Nat)), (∀ b ∈ bs, b.tests = []) →
    markIn n bs ms = (false, bs, ms)
  | [], _, _ => rfl
  | b :: bs, ms, h => by
    unfold markIn
    rw [if_pos (h b (by simp)), markIn_idle n bs ms fun c hc => h c (by simp [hc])]

theorem var_same (n : Nat) {st : St} (h : ∀ b ∈ st.blocks, b.tests = []) : Same st (var n st) := by
  unfold var
  rw [markIn_idle n _ _ h]
  simp only
  split
  · exact Same.some
  · intro r e; cases e

theorem vars_same {st : St} (h : ∀ b ∈ st.blocks, b.tests = []) : ∀ ns : List Nat, Same st (vars ns st)
  | [] => Same.some
  | n :: ns => (var_same n h).bind fun _ => (vars_same h ns).bind fun _ => Same.some

theorem cond_same (c : Cond W Nat Bool) : noTestC c → ∀ {st : St}, (∀ b ∈ st.blocks, b.tests = []) → Same st (cond c st) := by
  induction c with
  | atom a =>
    intro hc st h
    have ha : a.tag = false := by simpa [noTestC] using hc
    refine Same.bind (st := st) ?_ fun _ => Same.some
    refine (vars_same h a.pre).bind fun _ => ?_
    simp only [ha, Bool.false_eq_true, if_false]
    exact (vars_same h a.post).bind fun _ => Same.some
  | not c ih => exact fun hc st h => (ih hc h).bind fun _ => Same.some
  | and c d ihc ihd => exact fun hc st h => (ihc hc.1 h).bind fun _ => (ihd hc.2 h).bind fun _ => Same.some
  | or c d ihc ihd => exact fun hc st h => (ihc hc.1 h).bind fun _ => (ihd hc.2 h).bind fun _ => Same.some

theorem stmt_same (s : Stmt W) : noTest s → ∀ {st : St}, (∀ b ∈ st.blocks, b.tests = []) → Same st (stmt s st) := by
  induction s with
  | skip => exact fun _ _ _ => Same.some
  | exit again => exact fun _ _ _ => Same.some
  | act us f => exact fun _ st h => (vars_same h us).bind fun _ => Same.some
  | delete us f => exact fun hs => hs.elim
  | seq a b iha ihb => exact fun hs st h => (iha hs.1 h).bind fun _ => (ihb hs.2 h).bind fun _ => Same.some
  | ite c a b iha ihb =>
    exact fun hs st h => (cond_same c hs.1 h).bind fun _ => (iha hs.2.1 h).bind fun _ => (ihb hs.2.2 h).bind fun _ => Same.some
  | block a k iha =>
    exact fun hs st h => (iha hs (st := «open» st) (by simpa [«open»] using h)).bind fun _ => Same.some
  | loop us g a iha => exact fun hs st h => (vars_same h us).bind fun _ => (iha hs h).bind fun _ => Same.some

/-- **C103.** A script without `:matches` and `:regex` has no match variables, whatever it refers to. -/
theorem match_count_zero (s : Stmt W) (hs : noTest s) {p} (hc : compile s = some p) : p.2 = ([], 0) := by
  unfold compile at hc
  obtain ⟨r, hr, rfl⟩ := Option.map_eq_some_iff.1 hc
  have := stmt_same s hs (st := St.new) (by simp [St.new]) r hr
  simp [this, St.new]

/-! ## Examples -/

/-- Scripts that write the texts they read to a list. -/
abbrev Ex := Stmt (List Str)

def text : Variable → Str
  | .str t => t
  | _ => ['?']

def put (ns : List Nat) : Ex := .act ns fun w vs => w ++ vs.map text
/-- A test that matches and captures these texts. -/
def hit (caps : List Str) : Cond (List Str) Nat Bool := .atom ⟨true, [], [], fun w _ => (w, some caps)⟩
def miss : Cond (List Str) Nat Bool := .atom ⟨true, [], [], fun w _ => (w, none)⟩
def yes : Cond (List Str) Nat Bool := .atom ⟨false, [], [], fun w _ => (w, some [])⟩
def block (a : Ex) : Ex := .block a ()
def ifThen (c : Cond (List Str) Nat Bool) (a : Ex) : Ex := .ite c (block a) .skip

/-- `"ab" :matches "*b"` -/
def ab : Cond (List Str) Nat Bool := hit [['a', 'b'], ['a']]
/-- `"xyz" :matches "*y*"` -/
def xyz : Cond (List Str) Nat Bool := hit [['x', 'y', 'z'], ['x'], ['z']]

def result (s : Ex) : Option (List Str) := (compile s).bind fun p => execute 30 p []
def prescribed (s : Ex) : Option (List Str) := meaning rfc 30 s []

/-- Two tests and an `elsif` outside of blocks; variables are read in blocks and after them. -/
def sample : Ex :=
  .seq (put [1]) <| .seq (ifThen ab (.seq (put [0, 1]) (ifThen yes (put [1])))) <|
    .seq (.ite miss (block (put [5])) (ifThen xyz (put [1, 2]))) (put [2])

example : flat sample := by simp [sample, flat, ifThen, block, put, noTest, noTestC, flatC, ab, miss, xyz, yes, hit]
example : meaning present 30 sample [] = some [[], ['a', 'b'], ['a'], ['a'], ['x'], ['z'], ['z']] := by decide +kernel
example : result sample = some [[], ['a', 'b'], ['a'], ['a'], ['x'], ['z'], ['z']] := by decide +kernel
example : ∃ p, compile sample = some p := Option.isSome_iff_exists.1 ((match_number_iff _).2 (by decide))
example : noTest (ifThen yes (put [1, 2])) ∧ (compile (ifThen yes (put [1, 2]))).isSome :=
  ⟨by simp [ifThen, yes, block, put, noTest, noTestC], by decide +kernel⟩
example : ¬ (compile (put [63])).isSome := by rw [match_number_iff]; decide

/-- A script which is not flat but reads its variables under the conditions of `guarded`: a test within a block. -/
def nested : Ex := ifThen ab (.seq (put [1]) (ifThen xyz (put [2])))

example : meaning guarded 30 nested [] = some [['a'], ['z']] := by decide +kernel
example : result nested = some [['a'], ['z']] := by decide +kernel
example : (compile nested).map (fun p => p.2.2) = some 3 ∧ used nested = [1, 2] := by decide +kernel

/-- **Negation of C103.** A match variable in the arguments of a test with `:matches` is lost:
`if string :matches "ab" "*b" { if string :matches "${1}" "a" { … } }` -/
theorem lost_in_test :
    let s : Ex := ifThen ab (ifThen (.atom ⟨true, [], [1], fun w vs => (w, if vs.map text = [['a']] then some [] else none)⟩)
      (.act [] fun w _ => w ++ [['!']]))
    result s = some [] ∧ prescribed s = some [['!']] := by decide +kernel

/-- **Negation of C103.** A match that fails makes the variables of an earlier one unreadable if it is in an inner block:
`if string :matches "ab" "*b" { if string :matches "x" "y" { } fileinto "${1}"; }` -/
theorem hidden_by_failure :
    let s : Ex := ifThen ab (.seq (ifThen miss .skip) (put [1]))
    result s = some [[]] ∧ prescribed s = some [['a']] := by decide +kernel

/-- **Negation of C103.** A text of an earlier match is read if the last one has fewer texts. -/
theorem stale_text :
    let s : Ex := .seq (ifThen xyz .skip) (.seq (ifThen ab .skip) (put [1, 2]))
    result s = some [['a'], ['z']] ∧ prescribed s = some [['a'], []] := by decide +kernel

/-- **Negation of C103.** The variables of a match in a block cannot be read after it. -/
theorem lost_after_block :
    let s : Ex := .seq (block (ifThen ab (put [1]))) (put [1])
    result s = some [['a'], []] ∧ prescribed s = some [['a'], ['a']] := by decide +kernel

/-- **Negation of C103.** After `deleteheader :matches` no match variables can be read in the same block. -/
theorem lost_after_delete :
    let s : Ex := ifThen ab (.seq (put [1]) (.seq (.delete [] fun w _ => w) (put [1])))
    result s = some [['a'], []] ∧ prescribed s = some [['a'], ['a']] := by decide +kernel

/-- `anyof (string :matches "ab" "*b", string :matches "${1}" "x")`: the first test is told to capture the first text
(bit 1), but the script has no match variables at all.  `set_match_variables` asserts the opposite
(`variables.rs:17`); without assertions the text is dropped. -/
theorem captured_without_variable :
    (compile (ifThen (.or ab (.atom ⟨true, [], [1], fun w _ => (w, none)⟩)) .skip : Ex)).map (fun p => p.2) =
      some ([some 2, some 0], 0) := by decide +kernel

end Sieve.MatchVar
