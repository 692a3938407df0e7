import Verif.ScopeProps

/-!
# C102: what is cleared at the end of a block exists

`Instruction::Clear` asserts that the range of local variables it resets lies within the variables of the script
(`src/runtime/context.rs:184-192`), and the compiler computes the range by a subtraction
(`src/compiler/grammar/instruction.rs:943-962`).  Neither fails, for any nesting of blocks and any use of `:local`.
-/

namespace Sieve.Scope

variable {W V : Type}

/-- The ranges a compiled script clears. -/
def cleared : Code W V (Ref Nat) (Option Clear) → List Clear
  | .seq a b => cleared a ++ cleared b
  | .ite _ _ a ka b kb => cleared a ++ ka.toList ++ cleared b ++ kb.toList
  | .loop _ _ a ka => cleared a ++ ka.toList
  | _ => []

/-- Variables of all blocks but the outermost. -/
def inner (st : St) : Nat := ((st.block :: st.stack).dropLast.map List.length).sum

/-- They have been counted. -/
def Counted (st : St) : Prop := inner st ≤ st.num

theorem addOuter_inner {α : Type} (e : Name × α) (b : List (Name × α)) : ∀ l : List (List (Name × α)), l ≠ [] →
    ((b :: addOuter e l).dropLast.map List.length).sum = ((b :: l).dropLast.map List.length).sum
  | [], h => absurd rfl h
  | [x], _ => by simp [addOuter]
  | x :: y :: l, _ => by
    have := addOuter_inner e x (y :: l) (by simp)
    show ((b :: (x :: addOuter e (y :: l)).dropLast).map List.length).sum = ((b :: (x :: y :: l).dropLast).map List.length).sum
    rw [List.map_cons, List.map_cons, List.sum_cons, List.sum_cons, this]

theorem addOuter_length {α : Type} (e : Name × α) : ∀ l : List (List (Name × α)), (addOuter e l).length = l.length
  | [] => rfl
  | [_] => rfl
  | _ :: y :: l => by simp [addOuter, addOuter_length e (y :: l)]

/-- What a step of the compiler keeps. -/
structure Keeps (st st' : St) : Prop where
  counted : Counted st → Counted st'
  depth : st'.stack.length = st.stack.length
  top : max st.max st.num ≤ max st'.max st'.num

theorem Keeps.refl (st : St) : Keeps st st := ⟨id, rfl, Nat.le_refl _⟩

theorem Keeps.trans {a b c : St} (h : Keeps a b) (h' : Keeps b c) : Keeps a c :=
  ⟨fun x => h'.counted (h.counted x), h'.depth.trans h.depth, Nat.le_trans h.top h'.top⟩

theorem inner_cons (e : Name × Nat) (st : St) : inner { st with block := e :: st.block } ≤ inner st + 1 := by
  unfold inner
  cases st.stack with
  | nil => simp
  | cons x l =>
    show (((e :: st.block) :: (x :: l).dropLast).map List.length).sum ≤ ((st.block :: (x :: l).dropLast).map List.length).sum + 1
    rw [List.map_cons, List.map_cons, List.sum_cons, List.sum_cons, List.length_cons]
    omega

theorem register_keeps (st : St) (n : Name) (l : Bool) : Keeps st (register st n l).2 := by
  unfold register
  split
  · exact .refl st
  · split
    · refine ⟨fun h => ?_, rfl, by simp only; omega⟩
      have := inner_cons (n, st.num) st
      unfold Counted at h ⊢
      have e : inner { st with block := (n, st.num) :: st.block, num := st.num + 1 }
          = inner { st with block := (n, st.num) :: st.block } := rfl
      simp only [e]
      omega
    · rename_i h
      refine ⟨fun hc => ?_, addOuter_length _ _, Nat.le_refl _⟩
      unfold Counted inner at hc ⊢
      simp only
      rw [addOuter_inner]
      · exact hc
      · intro e; simp [e] at h

theorem declare_keeps (st : St) (x : Var) (l : Bool) : Keeps st (declare st x l).2 := by
  unfold declare
  split
  · simp only
    split
    · exact .refl st
    · exact register_keeps _ _ _
  · exact .refl st

/-- Closing a block that was opened: nothing is subtracted that is not there, and the range ends at the highest
number in use. -/
theorem close_fits {st : St} (h : Counted st) (hs : st.stack ≠ []) :
    Counted (close st).2 ∧ (close st).2.stack.length + 1 = st.stack.length ∧
    max st.max st.num ≤ max (close st).2.max (close st).2.num ∧
    ∀ k ∈ (close st).1, st.block.length ≤ st.num ∧ k.idx + k.num ≤ max (close st).2.max (close st).2.num := by
  obtain ⟨x, l, hx⟩ : ∃ x l, st.stack = x :: l := by
    cases e : st.stack with
    | nil => exact absurd e hs
    | cons x l => exact ⟨x, l, rfl⟩
  have hi : st.block.length + ((x :: l).dropLast.map List.length).sum ≤ st.num := by
    unfold Counted inner at h
    rw [hx, List.dropLast_cons_of_ne_nil (by simp)] at h
    simpa using h
  unfold close
  simp only [hx, List.headD_cons, List.tail_cons]
  split
  · refine ⟨?_, by simp, by simp only; omega, ?_⟩
    · unfold Counted inner
      simp only
      omega
    · intro k hk
      simp only [Option.mem_def, Option.some.injEq] at hk
      subst hk
      simp only
      omega
  · refine ⟨?_, by simp, Nat.le_refl _, ?_⟩
    · unfold Counted inner
      simp only
      omega
    · intro k hk
      simp at hk

theorem open_counted {st : St} (h : Counted st) : Counted («open» st) := by
  unfold Counted inner «open» at *
  rw [List.dropLast_cons_of_ne_nil (by simp)]
  simpa using h

theorem resolve_fits (s : Stmt W V) : ∀ {st c st'}, resolve s st = some (c, st') → Counted st →
    Keeps st st' ∧ ∀ k ∈ cleared c, k.idx + k.num ≤ max st'.max st'.num := by
  have block : ∀ {a : Stmt W V}, (∀ {st c st'}, resolve a st = some (c, st') → Counted st →
      Keeps st st' ∧ ∀ k ∈ cleared c, k.idx + k.num ≤ max st'.max st'.num) →
      ∀ {st c st'}, resolve a («open» st) = some (c, st') → Counted st →
      Keeps st (close st').2 ∧ ∀ k ∈ cleared c ++ (close st').1.toList,
        k.idx + k.num ≤ max (close st').2.max (close st').2.num := by
    intro a ih st c st' h hc
    obtain ⟨hk, hi⟩ := ih h (open_counted hc)
    have hd : st'.stack.length = st.stack.length + 1 := by rw [hk.depth]; simp [«open»]
    obtain ⟨h1, h2, h3, h4⟩ := close_fits (hk.counted (open_counted hc)) (by intro e; simp [e] at hd)
    have ht : max st.max st.num ≤ max st'.max st'.num := hk.top
    refine ⟨⟨fun _ => h1, by omega, by omega⟩, ?_⟩
    intro k hm
    rcases List.mem_append.mp hm with hm | hm
    · have := hi k hm; omega
    · exact (h4 k (by simpa using hm)).2
  induction s with
  | skip =>
    intro st c st' h _
    simp only [resolve, Option.some.injEq, Prod.mk.injEq] at h
    obtain ⟨rfl, rfl⟩ := h
    exact ⟨.refl _, by simp [cleared]⟩
  | exit e =>
    intro st c st' h _
    simp only [resolve, Option.some.injEq, Prod.mk.injEq] at h
    obtain ⟨rfl, rfl⟩ := h
    exact ⟨.refl _, by simp [cleared]⟩
  | act us f =>
    intro st c st' h _
    simp only [resolve, Option.some.injEq, Prod.mk.injEq] at h
    obtain ⟨rfl, rfl⟩ := h
    exact ⟨.refl _, by simp [cleared]⟩
  | set x l us f =>
    intro st c st' h _
    simp only [resolve, Option.some.injEq, Prod.mk.injEq] at h
    obtain ⟨rfl, rfl⟩ := h
    exact ⟨declare_keeps _ _ _, by simp [cleared]⟩
  | global n =>
    intro st c st' h _
    simp only [resolve] at h
    split at h
    · cases h
    · simp only [Option.some.injEq, Prod.mk.injEq] at h
      obtain ⟨rfl, rfl⟩ := h
      exact ⟨⟨fun h => h, rfl, Nat.le_refl _⟩, by simp [cleared]⟩
  | seq a b iha ihb =>
    intro st c st' h hc
    simp only [resolve, bind, Option.bind_eq_some_iff, pure, Option.some.injEq] at h
    obtain ⟨⟨a1, s1⟩, h1, ⟨b1, s2⟩, h2, h3⟩ := h
    simp only [Prod.mk.injEq] at h3
    obtain ⟨rfl, rfl⟩ := h3
    obtain ⟨k1, i1⟩ := iha h1 hc
    obtain ⟨k2, i2⟩ := ihb h2 (k1.counted hc)
    refine ⟨k1.trans k2, fun k hk => ?_⟩
    simp only [cleared, List.mem_append] at hk
    rcases hk with hk | hk
    · have := i1 k hk; have := k2.top; simp only at *; omega
    · exact i2 k hk
  | ite us g a ka b kb iha ihb =>
    intro st c st' h hc
    simp only [resolve, bind, Option.bind_eq_some_iff, pure, Option.some.injEq] at h
    obtain ⟨⟨a1, s1⟩, h1, ⟨b1, s2⟩, h2, h3⟩ := h
    simp only [Prod.mk.injEq] at h3
    obtain ⟨rfl, rfl⟩ := h3
    obtain ⟨k1, i1⟩ := block iha h1 hc
    obtain ⟨k2, i2⟩ := block ihb h2 (k1.counted hc)
    refine ⟨k1.trans k2, fun k hk => ?_⟩
    simp only [cleared, List.append_assoc] at hk
    rw [← List.append_assoc] at hk
    rcases List.mem_append.mp hk with hk | hk
    · have := i1 k hk; have := k2.top; simp only at *; omega
    · exact i2 k hk
  | loop us g a ka iha =>
    intro st c st' h hc
    simp only [resolve, bind, Option.bind_eq_some_iff, pure, Option.some.injEq] at h
    obtain ⟨⟨a1, s1⟩, h1, h3⟩ := h
    simp only [Prod.mk.injEq] at h3
    obtain ⟨rfl, rfl⟩ := h3
    exact block iha h1 hc

theorem mapCode_cleared (n : Nat) : ∀ c : Code W V (Ref Nat) (Option Clear), cleared (mapCode n c) = cleared c
  | .skip => rfl
  | .seq a b => by simp [mapCode, cleared, mapCode_cleared n a, mapCode_cleared n b]
  | .set .. => rfl
  | .act .. => rfl
  | .global _ => rfl
  | .ite _ _ a _ b _ => by simp [mapCode, cleared, mapCode_cleared n a, mapCode_cleared n b]
  | .loop _ _ a _ => by simp [mapCode, cleared, mapCode_cleared n a]
  | .exit _ => rfl

/-- **C102.** Every range of variables an accepted script clears lies within its variables. -/
theorem clear_in_range (s : Stmt W V) {c n} (h : compile s = some (c, n)) : ∀ k ∈ cleared c, k.idx + k.num ≤ n := by
  unfold compile at h
  split at h
  · cases h
  · rename_i c' st hr
    obtain ⟨_, hi⟩ := resolve_fits s hr (by simp [Counted, inner, St.new])
    simp only at h
    split at h <;> simp only [Option.some.injEq, Prod.mk.injEq] at h <;> obtain ⟨rfl, rfl⟩ := h
    · intro k hk
      rw [mapCode_cleared] at hk
      have := hi k hk
      omega
    · exact hi

/-- `if … { set "a" …; if … { set "b" …; set :local "c" … } }`: the inner block clears `b`, the outer one `a`; the
local variable is counted but in no range. -/
def exNested : Ex :=
  .ite [] (fun _ w => (w, true)) (.seq (.set (.plain ['a']) false [] fun _ _ => "1")
    (.ite [] (fun _ w => (w, true)) (.seq (.set (.plain ['b']) false [] fun _ _ => "2")
      (.set (.plain ['c']) true [] fun _ _ => "3")) () .skip ())) () .skip ()

example : (compile exNested).map (fun r => (cleared r.1, r.2)) = some ([⟨1, 1⟩, ⟨0, 1⟩], 3) := by decide +kernel

end Sieve.Scope
