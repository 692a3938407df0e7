import Verif.BaseProps

/-!
# Scripts that do not change the message

Scripts without commands that change the message keep, file and redirect the message as it was received.
-/

namespace Sieve.Base

open Sieve.Vm Sieve.Compile Sieve.Source

variable {W V P A T E : Type} {cfg : Cfg W V P}

/-- The message was never changed. -/
structure Untouched (s : State W V P) : Prop where
  edited : s.edited = false
  acts : ∀ i m, .version i m ∉ s.acts

theorem writeDown_same {s : State W V P} (h : s.edited = false) : writeDown cfg s = s := by simp [writeDown, h]

theorem Untouched.add {s : State W V P} (h : Untouched s) {a : Action P} (ha : ∀ i m, a ≠ .version i m) {v : View W V} {n : Nat} :
    Untouched { s with acts := s.acts ++ [a], view := v, redirects := n } := by
  refine ⟨h.edited, fun i m hm => ?_⟩
  rw [List.mem_append, List.mem_singleton] at hm
  rcases hm with hm | hm
  · exact h.acts i m hm
  · exact ha i m hm.symm

theorem current_untouched : ∀ {acts : List (Action P)} (m : Nat), (∀ i p, .version i p ∉ acts) → acts.foldl curStep m = m
  | [], _, _ => rfl
  | a :: l, m, h => by
    have hl : ∀ i p, .version i p ∉ l := fun i p hm => h i p (List.mem_cons_of_mem _ hm)
    rw [List.foldl_cons, current_untouched _ hl]
    cases a with
    | version i p => exact absurd List.mem_cons_self (h i p)
    | _ => rfl

theorem Untouched.current {s : State W V P} (h : Untouched s) : current s.acts = 0 := current_untouched 0 h.acts

theorem Untouched.upToDate {s : State W V P} (h : Untouched s) : UpToDate s := ⟨fun _ _ => h.edited, fun _ => .inr h.current⟩

/-- The message that is kept is the one that was received. -/
theorem Untouched.last {s : State W V P} (h : Untouched s) {l} (hl : Last cfg s l) {fl : List String} (hk : Kept s.acts fl) :
    l = [.keep (if fl = [] then cfg.globalFlags s.view.world else fl) 0] := by
  cases hk with
  | @explicit a b _ e hb =>
    have ha : Base.current a = 0 := current_untouched 0 fun i m hm => h.acts i m (by rw [e]; exact List.mem_append_left _ hm)
    have := hl.keep _ (.explicit e hb)
    rwa [ha] at this
  | implicit hc =>
    have := hl.keep _ (.implicit hc h.edited)
    rwa [h.current] at this

theorem command_untouched {s s' : State W V P} {i : Instr W V P} (hi : ∀ f, i ≠ .edit f) {b} (h : command cfg s i = some (s', b)) (hu : Untouched s) :
    Untouched s' := by
  cases i with
  | redirect l c a =>
    simp only [command] at h
    split at h
    · simp only [Option.some.injEq, Prod.mk.injEq] at h; rw [← h.1]; exact hu
    · split at h
      · simp only [Option.some.injEq, Prod.mk.injEq, writeDown_same hu.edited] at h; rw [← h.1]; exact hu.add (by simp)
      · simp only [Option.some.injEq, Prod.mk.injEq] at h; rw [← h.1]; exact hu
  | assign t f => cases t <;> simp only [command, Option.some.injEq, Prod.mk.injEq, reduceCtorEq] at h <;> (rw [← h.1]; exact ⟨hu.edited, hu.acts⟩)
  | editFlags t f => cases t <;> simp only [command, Option.some.injEq, Prod.mk.injEq, reduceCtorEq] at h <;> (rw [← h.1]; exact ⟨hu.edited, hu.acts⟩)
  | require caps =>
    simp only [command] at h
    split at h
    · simp only [Option.some.injEq, Prod.mk.injEq] at h; rw [← h.1]; exact hu
    · cases h
  | clear a b c =>
    simp only [command] at h
    split at h
    · simp only [Option.some.injEq, Prod.mk.injEq] at h; rw [← h.1]; exact ⟨hu.edited, hu.acts⟩
    · cases h
  | keep f => simp only [command, Option.some.injEq, Prod.mk.injEq, writeDown_same hu.edited] at h; rw [← h.1]; exact hu.add (by simp)
  | edit f => exact absurd rfl (hi f)
  | discard => simp only [command, Option.some.injEq, Prod.mk.injEq] at h; rw [← h.1]; exact hu.add (by simp)
  | reject f => simp only [command, Option.some.injEq, Prod.mk.injEq] at h; rw [← h.1]; exact hu.add (by simp)
  | vacation f fcc => simp only [command, Option.some.injEq, Prod.mk.injEq] at h; rw [← h.1]; exact hu.add (by simp)
  | notify f fcc =>
    simp only [command] at h
    split at h
    · simp only [Option.some.injEq, Prod.mk.injEq] at h; rw [← h.1]; exact hu
    · split at h
      · simp only [Option.some.injEq, Prod.mk.injEq] at h; rw [← h.1]; exact hu.add (by simp)
      · split at h
        · split at h
          · simp only [Option.some.injEq, Prod.mk.injEq] at h; rw [← h.1]; exact hu
          · simp only [Option.some.injEq, Prod.mk.injEq] at h; rw [← h.1]; exact hu.add (by simp)
        · simp only [Option.some.injEq, Prod.mk.injEq] at h; rw [← h.1]; exact hu.add (by simp)
  | fileInto c d f => simp only [command, Option.some.injEq, Prod.mk.injEq, writeDown_same hu.edited] at h; rw [← h.1]; exact hu.add (by simp)
  | stop => simp only [command, Option.some.injEq, Prod.mk.injEq] at h; rw [← h.1]; exact hu
  | _ => simp [command] at h

theorem andThen_untouched {s' : State W V P} {b r} {f : State W V P → Option (State W V P × Bool)} (h : andThen r f = some (s', b))
    (h1 : ∀ x b, r = some (x, b) → Untouched x) (h2 : ∀ x b s', f x = some (s', b) → Untouched x → Untouched s') : Untouched s' := by
  rcases r with _ | ⟨x, q⟩
  · cases h
  · cases q with
    | true =>
      simp only [andThen, Option.some.injEq, Prod.mk.injEq] at h
      rw [← h.1]
      exact h1 x _ rfl
    | false => exact h2 x _ _ h (h1 x _ rfl)

section
variable {I : Interp cfg A T E} (hI : ∀ a f, I.act a ≠ .edit f)
include hI

theorem commands_untouched : ∀ (is : List A) (s : State W V P) (s') (b), commands I is s = some (s', b) → Untouched s → Untouched s'
  | [], s, s', b, h, hu => by
    simp only [commands, Option.some.injEq, Prod.mk.injEq] at h
    rw [← h.1]; exact hu
  | a :: is, s, s', b, h, hu => by
    simp only [commands] at h
    rcases hc : command cfg s (I.act a) with _ | ⟨x, q⟩
    · rw [hc] at h; cases h
    · rw [hc] at h
      cases q with
      | true =>
        simp only [Option.some.injEq, Prod.mk.injEq] at h
        rw [← h.1]
        exact command_untouched (hI a) hc hu
      | false => exact commands_untouched is x s' b h (command_untouched (hI a) hc hu)

omit hI in
theorem atomTruth_untouched {s s' : State W V P} {a : Atom A T E} {b} (h : atomTruth I s a = some (b, s')) (hu : Untouched s) : Untouched s' := by
  cases a with
  | tru => simp only [atomTruth, Option.some.injEq, Prod.mk.injEq] at h; rw [← h.2]; exact hu
  | fls => simp only [atomTruth, Option.some.injEq, Prod.mk.injEq] at h; rw [← h.2]; exact hu
  | leaf t =>
    simp only [atomTruth] at h
    split at h
    · simp only [Option.some.injEq, Prod.mk.injEq] at h; rw [← h.2]; exact ⟨hu.edited, hu.acts⟩
    · simp only [Option.some.injEq, Prod.mk.injEq] at h; rw [← h.2]; exact hu.add (by simp)
    · cases h
  | ev e =>
    simp only [atomTruth] at h
    split at h
    · simp only [Option.some.injEq, Prod.mk.injEq] at h; rw [← h.2]; exact ⟨hu.edited, hu.acts⟩
    · cases h
  | bad b => cases h

omit hI in
mutual
theorem truth_untouched : ∀ (e : TestE A T E) (s : State W V P) (b s'), truth I e s = some (b, s') → Untouched s → Untouched s'
  | .atom a, s, b, s', h, hu => atomTruth_untouched h hu
  | .not e, s, b, s', h, hu => by
    rw [truth] at h
    split at h
    · rename_i h1
      simp only [Option.some.injEq, Prod.mk.injEq] at h
      rw [← h.2]
      exact truth_untouched e _ _ _ h1 hu
    · cases h
  | .any l, s, b, s', h, hu => truths_untouched false l s b s' h hu
  | .all l, s, b, s', h, hu => truths_untouched true l s b s' h hu
theorem truths_untouched (isAll : Bool) : ∀ (l : Tests A T E) (s : State W V P) (b s'), truths I isAll l s = some (b, s') → Untouched s → Untouched s'
  | .one e, s, b, s', h, hu => truth_untouched e s b s' h hu
  | .cons e l, s, b, s', h, hu => by
    rw [truths] at h
    split at h
    · rename_i h1
      split at h
      · exact truths_untouched isAll l _ _ _ h (truth_untouched e _ _ _ h1 hu)
      · simp only [Option.some.injEq, Prod.mk.injEq] at h
        rw [← h.2]
        exact truth_untouched e _ _ _ h1 hu
    · cases h
end

theorem clear_untouched (cl : Option A) (s : State W V P) (b s') (h : clear I cl s = some (s', b)) (hu : Untouched s) : Untouched s' := by
  cases cl with
  | none => simp only [clear, Option.some.injEq, Prod.mk.injEq] at h; rw [← h.1]; exact hu
  | some a => exact command_untouched (hI a) h hu

mutual
theorem stmt_untouched : ∀ (x : Stmt A T E) (s : State W V P) (s') (b), stmt I x s = some (s', b) → Untouched s → Untouched s'
  | .act is, s, s', b, h, hu => commands_untouched hI is s s' b h hu
  | .cond c, s, s', b, h, hu => chain_untouched c s s' b h hu
  | .ret, s, s', b, h, hu => by simp only [stmt, Option.some.injEq, Prod.mk.injEq] at h; rw [← h.1]; exact hu
  | .eval _, _, _, _, h, _ => by simp [stmt] at h
  | .vac t a, s, s', b, h, hu => by
    simp only [stmt] at h
    split at h
    · rename_i h1
      exact command_untouched (hI a) h (atomTruth_untouched h1 hu)
    · rename_i h1
      simp only [Option.some.injEq, Prod.mk.injEq] at h; rw [← h.1]; exact atomTruth_untouched h1 hu
    · cases h
  | .loop _ _ _, _, _, _, h, _ => by simp [stmt] at h
  | .parts _ _ _, _, _, _, h, _ => by simp [stmt] at h
  | .brk _, _, _, _, h, _ => by simp [stmt] at h
  | .cont, _, _, _, h, _ => by simp [stmt] at h
theorem block_untouched : ∀ (x : Blk A T E) (s : State W V P) (s') (b), block I x s = some (s', b) → Untouched s → Untouched s'
  | .nil, s, s', b, h, hu => by simp only [block, Option.some.injEq, Prod.mk.injEq] at h; rw [← h.1]; exact hu
  | .cons st bl, s, s', b, h, hu => by
    rw [block] at h
    exact andThen_untouched h (fun x b e => stmt_untouched st s x b e hu) (fun x b s' e hx => block_untouched bl x s' b e hx)
theorem chain_untouched : ∀ (x : Chain A T E) (s : State W V P) (s') (b), chain I x s = some (s', b) → Untouched s → Untouched s'
  | .one t bl cl, s, s', b, h, hu => by
    rw [chain] at h
    split at h
    · rename_i h1
      have h2 := truth_untouched t _ _ _ h1 hu
      exact andThen_untouched h (fun x b e => block_untouched bl _ x b e h2) (fun x b s' e => clear_untouched hI cl x b s' e)
    · rename_i h1
      simp only [Option.some.injEq, Prod.mk.injEq] at h; rw [← h.1]; exact truth_untouched t _ _ _ h1 hu
    · cases h
  | .els t bl cl e cl', s, s', b, h, hu => by
    rw [chain] at h
    split at h
    · rename_i h1
      have h2 := truth_untouched t _ _ _ h1 hu
      exact andThen_untouched h (fun x b e => block_untouched bl _ x b e h2) (fun x b s' e => clear_untouched hI cl x b s' e)
    · rename_i h1
      have h2 := truth_untouched t _ _ _ h1 hu
      exact andThen_untouched h (fun x b e' => block_untouched e _ x b e' h2) (fun x b s' e => clear_untouched hI cl' x b s' e)
    · cases h
  | .elif t bl cl c, s, s', b, h, hu => by
    rw [chain] at h
    split at h
    · rename_i h1
      have h2 := truth_untouched t _ _ _ h1 hu
      exact andThen_untouched h (fun x b e => block_untouched bl _ x b e h2) (fun x b s' e => clear_untouched hI cl x b s' e)
    · rename_i h1
      exact chain_untouched c _ s' b h (truth_untouched t _ _ _ h1 hu)
    · cases h
end

/-- A script that has no command that changes the message keeps, files and redirects the message as it was received. -/
theorem outcome_untouched {b : Blk A T E} {w : W} {k n : Nat} {ans : Nat → Bool} {st : State W V P} (h : outcome I b w k n ans = some st) :
    Untouched st := by
  rcases h' : block I b (initial cfg w k n ans) with _ | ⟨st', q⟩
  · rw [outcome, h'] at h; cases h
  · rw [outcome, h'] at h
    simp only [Option.map_some, Option.some.injEq] at h
    subst h
    exact block_untouched hI b _ _ _ h' ⟨rfl, fun i m hm => by cases hm⟩

end

end Sieve.Base
