import Verif.CompileTargets

/-!
# Jumps lead forward (C101)

The interpreter asserts, wherever it jumps, that the target of a conditional jump or of a loop
instruction lies behind it and that no unconditional jump leads to itself (`context.rs:136`, `144`,
`151`, `238`, `276`).  The assertions hold for whatever the compiler emits, whether the script is
well-formed in the sense of the grammar or not.
-/

namespace Sieve.Compile

variable {A T E : Type}

/-- What is asserted of the instruction at position `p` when it jumps to `t`. -/
def Op.Asserts (p t : Nat) : Op A T E → Prop
  | .jmp _ => t ≠ p
  | _ => p < t

/-- The jumps that have been resolved meet the assertions. -/
def Fwd (ops : List (Op A T E)) : Prop :=
  ∀ (p : Nat) (o : Op A T E) (t : Nat), ops[p]? = some o → o.target = some t → t = maxPos ∨ o.Asserts p t

theorem Op.asserts_behind {o : Op A T E} {p t : Nat} (h : p < t) : o.Asserts p t := by
  cases o <;> simp only [Op.Asserts] <;> omega

theorem Fwd.append {ops l : List (Op A T E)} (h : Fwd ops)
    (hl : ∀ (i : Nat) (o : Op A T E) (t : Nat), l[i]? = some o → o.target = some t →
      t = maxPos ∨ o.Asserts (ops.length + i) t) : Fwd (ops ++ l) := by
  intro p o t hp ht
  by_cases hlt : p < ops.length
  · rw [List.getElem?_append_left hlt] at hp
    exact h p o t hp ht
  · rw [List.getElem?_append_right (by omega)] at hp
    have := hl _ o t hp ht
    rwa [Nat.add_sub_cancel' (by omega)] at this

/-- Instructions without targets, or with targets yet to be resolved. -/
theorem Fwd.open {ops l : List (Op A T E)} (h : Fwd ops)
    (hl : ∀ o ∈ l, ∀ t, o.target = some t → t = maxPos) : Fwd (ops ++ l) :=
  h.append (fun _ o t hi ht => .inl (hl o (List.mem_of_getElem? hi) t ht))

theorem Fwd.redirect {ops ops' : List (Op A T E)} {v only} (h : Fwd ops) (r : Redirected ops ops' v only)
    (hv : ops.length ≤ v) : Fwd ops' := by
  intro p o t hp ht
  rcases r.change p o hp with h' | h'
  · exact h p o t h' ht
  · rw [h'] at ht
    cases ht
    have := (List.getElem?_eq_some_iff.mp hp).1
    rw [r.length] at this
    exact .inr (Op.asserts_behind (by omega))

theorem parse_fwd (maxTests : Nat) (ts : List (Tok A T E)) (ops b st isNot) (hF : Fwd ops)
    (r : List (Tok A T E) × List (Op A T E)) (h : parseLoop maxTests ts ops b st isNot = some r) : Fwd r.2 := by
  fun_induction parseLoop maxTests ts ops b st isNot with
  | case2 ops b st isNot ts hc ih => exact ih (hF.open (by intro o ho t ht; split at ho <;> simp_all [Op.target])) h
  | case4 ops b st isNot ts ih => exact ih hF h
  | case5 ops b st isNot ts hc ih => exact ih hF h
  | case7 ops b isNot ts hc prev st ops' he =>
    simp only [Option.some.injEq] at h
    subst h
    exact (hF.redirect (patchTest_redirected _ _ _) (Nat.le_refl _)).open (by simp [Op.target])
  | case8 ops b isNot ts hc prev st ops' he ih =>
    exact ih (hF.redirect (patchTest_redirected _ _ _) (Nat.le_refl _)) h
  | case9 ops b st isNot ts hc ih => exact ih hF h
  | case11 ops b st isNot hc ts ih => exact ih hF h
  | case14 ops b st isNot hc ts ih => exact ih hF h
  | case19 ops b st isNot t ts _ _ _ _ _ _ op n' ha ts' hx he =>
    simp only [Option.some.injEq] at h
    subst h
    have := atom_target ha
    exact (hF.open (by simp [this])).open (by simp [Op.target])
  | case20 ops b st isNot t ts _ _ _ _ _ _ op n' ha ts' hx he ih =>
    have := atom_target ha
    exact ih (hF.open (by simp [this])) h
  | _ => simp at h

theorem start_before {ops : List (Op A T E)} {t p} (h : Start ops t p) (ht : t ≠ .else_) : p < ops.length := by
  cases t with
  | else_ => exact absurd rfl ht
  | root => exact h.elim
  | if_ => obtain ⟨_, h⟩ := h; exact (List.getElem?_eq_some_iff.mp h).1
  | elsif => obtain ⟨_, h⟩ := h; exact (List.getElem?_eq_some_iff.mp h).1
  | while_ => obtain ⟨_, _, h⟩ := h; exact (List.getElem?_eq_some_iff.mp h).1
  | fep => obtain ⟨_, h⟩ := h; exact (List.getElem?_eq_some_iff.mp h).1

theorem closed_fwd {ts : List (Tok A T E)} {s s' : State A T E} {clear next} (h : Inv (.cclose clear :: ts) s)
    (hF : Fwd s.ops) (hc : closeBlock s clear next = some s') : Fwd s'.ops := by
  obtain ⟨cur, stack, hs⟩ := h.cons
  cases stack with
  | nil => simp [closeBlock, hs] at hc
  | cons prev stack =>
    have hN := h.nested
    rw [hs] at hN
    have hst := hN.2.1
    simp only [closeBlock, hs] at hc
    generalize ho : s.ops ++ List.map Op.plain clear.toList = ops at hc
    have hlen : s.ops.length ≤ ops.length := by rw [← ho]; simp
    have hF' : Fwd ops := by
      rw [← ho]
      exact hF.open (by simp [Op.target])
    have loop : ∀ bt, prev.lastStart < s.ops.length → Fwd (patchJmp (patchStart (ops ++ [.jmp prev.lastStart]) bt
        prev.lastStart (ops ++ [.jmp prev.lastStart] : List (Op A T E)).length) cur.breakJmps
        (ops ++ [.jmp prev.lastStart] : List (Op A T E)).length) := by
      intro bt hp
      have h1 : Fwd (ops ++ [.jmp prev.lastStart]) := by
        refine hF'.append ?_
        intro i o t hi ht
        have : i = 0 := by
          have := (List.getElem?_eq_some_iff.mp hi).1
          simpa using this
        subst this
        simp only [List.getElem?_cons_zero, Option.some.injEq] at hi
        subst hi
        simp only [Op.target, Option.some.injEq] at ht
        subst ht
        exact .inr (by simp only [Op.Asserts]; omega)
      have r := patchStart_redirected (ops ++ [.jmp prev.lastStart]) bt prev.lastStart
        (ops ++ [.jmp prev.lastStart] : List (Op A T E)).length
      exact (h1.redirect r (Nat.le_refl _)).redirect (patchJmp_redirected _ _ _) (Nat.le_of_eq r.length)
    have test : ∀ bt js, Fwd (patchJmp (patchStart ops bt prev.lastStart ops.length) js ops.length) := by
      intro bt js
      have r := patchStart_redirected ops bt prev.lastStart ops.length
      exact (hF'.redirect r (Nat.le_refl _)).redirect (patchJmp_redirected _ _ _) (Nat.le_of_eq r.length)
    have more : ∀ bt, Fwd (patchStart (ops ++ [.jmp maxPos]) bt prev.lastStart
        (ops ++ [.jmp maxPos] : List (Op A T E)).length) := by
      intro bt
      have h1 : Fwd (ops ++ [.jmp maxPos]) := hF'.open (by simp [Op.target])
      exact h1.redirect (patchStart_redirected _ _ _ _) (Nat.le_refl _)
    cases hb : cur.btype with
    | root => rw [hb] at hst; exact hst.elim
    | else_ =>
      simp only [hb, Option.some.injEq] at hc
      subst hc
      exact hF'.redirect (patchJmp_redirected _ _ _) (Nat.le_refl _)
    | while_ =>
      have hp := start_before hst (by simp [hb])
      simp only [hb, Option.some.injEq] at hc
      subst hc
      exact loop _ hp
    | fep =>
      have hp := start_before hst (by simp [hb])
      simp only [hb, Option.some.injEq] at hc
      subst hc
      exact loop _ hp
    | if_ =>
      simp only [hb] at hc
      cases next with
      | true =>
        simp only [if_true, Option.some.injEq] at hc
        subst hc
        exact more _
      | false =>
        simp only [Bool.false_eq_true, if_false, Option.some.injEq] at hc
        subst hc
        exact test _ _
    | elsif =>
      simp only [hb] at hc
      cases next with
      | true =>
        simp only [if_true, Option.some.injEq] at hc
        subst hc
        exact more _
      | false =>
        simp only [Bool.false_eq_true, if_false, Option.some.injEq] at hc
        subst hc
        exact test _ _

theorem opened_ops {lim : Limits} {s s' : State A T E} {new} (h : openBlock lim s new = some s') : s'.ops = s.ops := by
  unfold openBlock at h
  split at h
  · cases h
  · split at h
    · simp only [Option.some.injEq] at h; subst h; rfl
    · cases h

theorem round_fwd {lim : Limits} {s s' : State A T E} {t : Tok A T E} {ts ts'} (h : Inv (t :: ts) s) (hF : Fwd s.ops)
    (hr : round lim s t ts = some (ts', s')) : Fwd s'.ops := by
  cases t <;> simp only [round] at hr
  case kif =>
    split at hr
    · rename_i ts1 ops1 hp
      simp only [Option.map_eq_some_iff, Prod.mk.injEq] at hr
      obtain ⟨s1, ho, rfl, rfl⟩ := hr
      rw [opened_ops ho]
      exact parse_fwd _ _ _ _ _ _ hF _ hp
    · cases hr
  case kelsif =>
    split at hr
    · split at hr
      · rename_i ts1 ops1 hp
        simp only [Option.map_eq_some_iff, Prod.mk.injEq] at hr
        obtain ⟨s1, ho, rfl, rfl⟩ := hr
        rw [opened_ops ho]
        exact parse_fwd _ _ _ _ _ _ hF _ hp
      · cases hr
    · cases hr
  case kelse =>
    split at hr
    · split at hr
      · simp only [Option.map_eq_some_iff, Prod.mk.injEq] at hr
        obtain ⟨s1, ho, rfl, rfl⟩ := hr
        rw [opened_ops ho]
        exact hF
      · cases hr
    · cases hr
  case kwhile e =>
    split at hr
    · simp only [Option.map_eq_some_iff, Prod.mk.injEq] at hr
      obtain ⟨s1, ho, rfl, rfl⟩ := hr
      rw [opened_ops ho]
      exact hF.open (by simp [Op.target])
    · cases hr
  case kfep l =>
    split at hr
    · cases hr
    · split at hr
      · cases hr
      · split at hr
        · simp only [Option.map_eq_some_iff, Prod.mk.injEq] at hr
          obtain ⟨s1, ho, rfl, rfl⟩ := hr
          rw [opened_ops ho]
          exact hF.open (by simp [Op.target])
        · cases hr
  case kbreak l =>
    cases l with
    | some l =>
      simp only at hr
      split at hr
      · cases hr
      · simp only [Option.some.injEq, Prod.mk.injEq] at hr
        obtain ⟨_, rfl⟩ := hr
        exact hF.open (by simp [Op.target])
    | none =>
      simp only at hr
      split at hr
      · cases hr
      all_goals
        simp only [Option.some.injEq, Prod.mk.injEq] at hr
        obtain ⟨_, rfl⟩ := hr
        exact hF.open (by simp [Op.target])
  case kcont =>
    split at hr
    · cases hr
    · simp only [Option.some.injEq, Prod.mk.injEq] at hr
      obtain ⟨_, rfl⟩ := hr
      exact hF
    · rename_i q hq
      simp only [Option.some.injEq, Prod.mk.injEq] at hr
      obtain ⟨_, rfl⟩ := hr
      have := contJump_inside h.nested hq (by simp)
      refine hF.append ?_
      intro i o t hi ht
      have : i = 0 := by
        have := (List.getElem?_eq_some_iff.mp hi).1
        simpa using this
      subst this
      simp only [List.getElem?_cons_zero, Option.some.injEq] at hi
      subst hi
      simp only [Op.target, Option.some.injEq] at ht
      subst ht
      exact .inr (by simp only [Op.Asserts]; omega)
  case kret =>
    simp only [Option.some.injEq, Prod.mk.injEq] at hr
    obtain ⟨_, rfl⟩ := hr
    refine (hF.open ?_).open (by simp [Op.target])
    intro o ho t ht
    split at ho <;> simp at ho
    subst ho
    cases ht
  case keval e =>
    simp only [Option.some.injEq, Prod.mk.injEq] at hr
    obtain ⟨_, rfl⟩ := hr
    exact hF.open (by simp [Op.target])
  case act is =>
    simp only [Option.some.injEq, Prod.mk.injEq] at hr
    obtain ⟨_, rfl⟩ := hr
    exact hF.open (by simp [Op.target])
  case vac t a =>
    simp only [Option.some.injEq, Prod.mk.injEq] at hr
    obtain ⟨_, rfl⟩ := hr
    refine hF.append ?_
    intro i o t hi ht
    match i, hi with
    | 0, hi => simp at hi; subst hi; cases ht
    | 1, hi =>
      simp at hi
      subst hi
      simp only [Op.target, Option.some.injEq] at ht
      subst ht
      exact .inr (by simp only [Op.Asserts]; omega)
    | 2, hi => simp at hi; subst hi; cases ht
  case cclose clear =>
    simp only [Option.map_eq_some_iff, Prod.mk.injEq] at hr
    obtain ⟨s1, ho, rfl, rfl⟩ := hr
    exact closed_fwd h hF ho
  all_goals cases hr

theorem rounds_fwd {lim : Limits} : ∀ (n : Nat) (ts : List (Tok A T E)) (s : State A T E) (ops),
    Inv ts s → Fwd s.ops → rounds lim n ts s = some ops → Fwd ops
  | n, [], s, ops, _, hF, hr => by
    have e : s.blocks.length = 1 ∧ s.ops = ops := by
      cases n <;> simpa [rounds] using hr
    exact e.2 ▸ hF
  | 0, _ :: _, _, _, _, _, hr => by simp [rounds] at hr
  | n + 1, t :: ts, s, ops, h, hF, hr => by
    rw [rounds] at hr
    split at hr
    · cases hr
    · rename_i ts' s' h1
      exact rounds_fwd n ts' s' ops (round_inv h h1) (round_fwd h hF h1) hr

theorem inv_start (ts : List (Tok A T E)) : Inv ts (⟨[], [.new .root], .root⟩ : State A T E) := by
  refine ⟨⟨rfl, by simp [Block.new], by simp [Block.new], by simp [Block.new]⟩, ?_, ?_⟩
  · intro p o t hp
    simp at hp
  · intro b hb hne
    simp at hb
    subst hb
    simp [Block.new] at hne

/-- **C101** (jumps).  In every script the compiler accepts, a conditional jump or a loop
instruction leads behind itself, and no jump leads to itself. -/
theorem compiled_forward {lim : Limits} {ts : List (Tok A T E)} {ops : List (Op A T E)}
    (h : compile lim ts = some ops) (hl : ops.length < maxPos) :
    ∀ (p : Nat) (o : Op A T E) (t : Nat), ops[p]? = some o → o.target = some t → o.Asserts p t := by
  intro p o t hp ht
  rcases rounds_fwd _ _ _ _ (inv_start ts) (by intro p o t hp; simp at hp) h p o t hp ht with h1 | h1
  · have := compiled_in_range h o (List.mem_of_getElem? hp) t ht
    omega
  · exact h1

end Sieve.Compile
