import Verif.VmIsolation

/-!
# The end of a block (C54)
-/

namespace Sieve.Vm

variable {W V P : Type}

theorem clearAt_get (cfg : Cfg W V P) (p : Nat → Bool) (vs : List V) (i : Nat) :
    (clearAt cfg p vs)[i]? = vs[i]?.map fun v => if p i && !cfg.isEmpty v then cfg.empty else v := by
  unfold clearAt
  rw [List.getElem?_mapIdx]

theorem clearAt_length (cfg : Cfg W V P) (p : Nat → Bool) (vs : List V) : (clearAt cfg p vs).length = vs.length := by
  simp [clearAt]

/-- **C54 (2).** The instruction at the end of a block leaves the variables of the block, and the match variables it lists,
empty; it changes no other variable, and nothing else but the position and the count of instructions. -/
theorem clear_exact {cfg : Cfg W V P} {c : Ctx W V P} {idx num : Nat} {mv : List Nat}
    (hi : fetch c = some (.clear idx num mv)) (hn : c.numInstr < cfg.cpuLimit)
    (hl : idx + num ≤ c.locals.length) (he : cfg.isEmpty cfg.empty = true) :
    ∃ ls ms, step cfg c = .cont { c with numInstr := c.numInstr + 1, pos := c.pos + 1, locals := ls, matchv := ms }
      ∧ ls.length = c.locals.length ∧ ms.length = c.matchv.length
      ∧ (∀ i, idx ≤ i → i < idx + num → ∀ v, ls[i]? = some v → cfg.isEmpty v = true)
      ∧ (∀ i, i < idx ∨ idx + num ≤ i → ls[i]? = c.locals[i]?)
      ∧ (∀ i ∈ mv, ∀ v, ms[i]? = some v → cfg.isEmpty v = true)
      ∧ (∀ i, i ∉ mv → ms[i]? = c.matchv[i]?) := by
  have emp : ∀ (p : Nat → Bool) (vs : List V) (i : Nat), p i = true → ∀ v, (clearAt cfg p vs)[i]? = some v → cfg.isEmpty v = true := by
    intro p vs i hp v hv
    rw [clearAt_get] at hv
    cases hx : vs[i]? with
    | none => rw [hx] at hv; cases hv
    | some u =>
      rw [hx] at hv
      simp only [Option.map_some, hp, Bool.true_and, Option.some.injEq] at hv
      subst hv
      cases hu : cfg.isEmpty u <;> simp [hu, he]
  have same : ∀ (p : Nat → Bool) (vs : List V) (i : Nat), p i = false → (clearAt cfg p vs)[i]? = vs[i]? := by
    intro p vs i hp
    rw [clearAt_get]
    cases vs[i]? <;> simp [hp]
  refine ⟨clearAt cfg (fun i => idx ≤ i && i < idx + num) c.locals, clearAt cfg (fun i => mv.contains i) c.matchv, ?_,
    clearAt_length .., clearAt_length .., ?_, ?_, ?_, ?_⟩
  · unfold fetch at hi
    unfold step
    split at hi
    · cases hi
    · rename_i fr rest hs
      rw [hs]
      simp only [hi]
      rw [if_neg (by omega)]
      simp only [exec, execClear, if_pos hl]
  · intro i h1 h2
    exact emp _ _ i (by simp [h1, h2])
  · intro i h
    refine same _ _ i ?_
    rcases h with h | h
    · simp [Nat.not_le.mpr h]
    · simp [Nat.not_lt.mpr h]
  · intro i h
    exact emp _ _ i (by simpa using h)
  · intro i h
    exact same _ _ i (by simpa using h)

/-- Variables 1 and 2 are emptied, 0 and 3 are not. -/
example : sees [start [.assign (.local 0) (fun _ => 7), .assign (.local 1) (fun _ => 8), .assign (.local 2) (fun _ => 9),
        .assign (.local 3) (fun _ => 5), .clear 1 2 [],
        .test (fun v => ⟨.bool (v.locals == [7, 0, 0, 5]), v.matchv, v.world, false⟩), .jz 8, fileTo "A" false], .true]
    = some [.event (.fileInto "A" [] 0), .none] := by
  decide

end Sieve.Vm
