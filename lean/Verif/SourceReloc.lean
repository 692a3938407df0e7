import Verif.SourceModel

/-!
# Instructions do not look at positions, counters or the test result
-/

namespace Sieve.Source

open Sieve.Vm Sieve.Compile

variable {W V P A T E : Type} {cfg : Cfg W V P}

/-- The part of the state that belongs to control flow. -/
structure Place (W V P : Type) where
  pos : Nat
  numInstr : Nat
  testResult : Bool
  stack : List (Frame W V P)

/-- The same state at another place. -/
def move (r : Place W V P) (c : Ctx W V P) : Ctx W V P :=
  { c with pos := r.pos, numInstr := r.numInstr, testResult := r.testResult, stack := r.stack }

def moveS (r : Place W V P) : Step W V P → Step W V P
  | .cont c => .cont (move r c)
  | .ret o c => .ret o (move r c)

theorem build_move (c : Ctx W V P) (r) :
    buildMessageId cfg (move r c) = ((buildMessageId cfg c).1, move r (buildMessageId cfg c).2) := by
  unfold buildMessageId move
  split <;> rfl

theorem settle_move (c : Ctx W V P) (r) :
    settle cfg (move r c) = ((settle cfg c).1, move r (settle cfg c).2) := by
  unfold settle
  rw [show (move r c).final = c.final from rfl]
  split
  · rw [show ({ move r c with final := none } : Ctx W V P) = move r { c with final := none } from rfl, build_move]
    simp only
    split <;> rfl
  · rfl
  · rfl

theorem finish_move (c : Ctx W V P) (r) : finish cfg (move r c) = moveS r (finish cfg c) := by
  unfold finish
  rw [settle_move]
  rcases settle cfg c with ⟨l, c'⟩
  rcases l with _ | ⟨e, _ | ⟨e', es⟩⟩ <;> rfl

theorem finishLoop_move (c : Ctx W V P) (r) :
    finishLoop cfg (move r c) = move { r with stack := [] } (finishLoop cfg c) := by
  unfold finishLoop
  rw [show ({ move r c with stack := [] } : Ctx W V P) = move { r with stack := [] } { c with stack := [] } from rfl,
    settle_move]
  rcases settle cfg { c with stack := [] } with ⟨l, c'⟩
  rcases l with _ | ⟨e, es⟩ <;> rfl

theorem drain_move (c : Ctx W V P) (r) : drain (move r c) = moveS r (drain c) := by
  unfold drain
  rw [show (move r c).queue = c.queue from rfl]
  split <;> rfl

theorem setTarget_move (c : Ctx W V P) (t v r) : setTarget (move r c) t v = move r (setTarget c t v) := by
  cases t <;> rfl

theorem fileInto_move (c : Ctx W V P) (a d f r) :
    execFileInto cfg (move r c) a d f = move r (execFileInto cfg c a d f) := by
  unfold execFileInto
  rw [build_move]
  rfl

theorem redirect_move (c : Ctx W V P) (a d f r) :
    execRedirect cfg (move r c) a d f = move r (execRedirect cfg c a d f) := by
  unfold execRedirect
  rw [show (move r c).view = c.view from rfl]
  split
  · rfl
  · rename_i x _
    by_cases h1 : c.numRedirects < cfg.maxRedirects ∧ c.numOut < cfg.maxOut ∧ cfg.received c.world < cfg.maxReceived
    · rw [if_pos h1, if_pos (show (move r c).numRedirects < cfg.maxRedirects ∧ (move r c).numOut < cfg.maxOut
        ∧ cfg.received (move r c).world < cfg.maxReceived from h1)]
      by_cases h2 : (!a && cfg.own c.world x) = true
      · rw [if_pos h2, if_pos (show (!a && cfg.own (move r c).world x) = true from h2)]
      · rw [if_neg h2, if_neg (show ¬ (!a && cfg.own (move r c).world x) = true from h2)]
        cases hc : c.hasChanges <;> simp [buildMessageId, move, hc]
    · rw [if_neg h1, if_neg (show ¬ ((move r c).numRedirects < cfg.maxRedirects ∧ (move r c).numOut < cfg.maxOut
        ∧ cfg.received (move r c).world < cfg.maxReceived) from h1)]

theorem notify_move (c : Ctx W V P) (f g r) :
    execNotify cfg (move r c) f g = move r (execNotify cfg c f g) := by
  unfold execNotify
  rw [show (move r c).view = c.view from rfl, show (move r c).numOut = c.numOut from rfl]
  split
  · rfl
  · split
    · rfl
    · rfl
    · split <;> rfl

/-- What an instruction leaves alone. -/
structure Still (c c' : Ctx W V P) : Prop where
  stack : c'.stack = c.stack
  parts : c'.partStack = c.partStack

/-- How executing an instruction in a state `c` and in `move r c` compare. -/
inductive Twin (cfg : Cfg W V P) (r : Place W V P) (c : Ctx W V P) (sus : Bool) : Step W V P → Step W V P → Prop where
  | cont {c'} : sus = false → Still c c' → Twin cfg r c sus (.cont c') (.cont (move r c'))
  | push (s) : sus = false → (∃ n, lookup c.cache n = some s ∨ cfg.registered n.str = some s) →
      Twin cfg r c sus (.cont (pushScript cfg c s)) (.cont (pushScript cfg (move r c) s))
  | ret {o c'} : sus = false → Still c c' → Twin cfg r c sus (.ret o c') (.ret o (move r c'))
  | again {o c'} : sus = true → Still c c' →
      Twin cfg r c sus (.ret o c') (.ret o (move { r with pos := r.pos - 1 } c'))
  | over {o c'} : c'.stack = [] → Twin cfg r c sus (.ret o c') (.ret o (move { r with stack := [] } c'))

theorem twin_drain {r : Place W V P} {c d : Ctx W V P} (h : Still c d) :
    Twin cfg r c false (drain d) (drain (move r d)) := by
  rw [drain_move]
  unfold drain
  split
  · exact .cont rfl h
  · exact .ret rfl ⟨h.1, h.2⟩

theorem twin_finish {r : Place W V P} {c d : Ctx W V P} {sus} (hs : d.stack = []) :
    Twin cfg r c sus (finish cfg d) (finish cfg (move { r with stack := [] } d)) := by
  rw [finish_move]
  cases h : finish cfg d with
  | cont c' => exact absurd h (finish_not_cont cfg d c')
  | ret o c' => exact .over (by rw [(finish_ret h).1.1, hs])

theorem build_parts (cfg : Cfg W V P) (c : Ctx W V P) : (buildMessageId cfg c).2.partStack = c.partStack := by
  unfold buildMessageId; split <;> rfl

theorem still_fileInto (c : Ctx W V P) (a d f) : Still c (execFileInto cfg c a d f) :=
  ⟨by simp [execFileInto], by simp [execFileInto, build_parts]⟩

theorem still_redirect (c : Ctx W V P) (a d f) : Still c (execRedirect cfg c a d f) := by
  refine ⟨(sameCtl_redirect ..).1, ?_⟩
  unfold execRedirect
  split
  · rfl
  · split
    · split
      · rfl
      · simp [build_parts]
    · rfl

theorem still_notify (c : Ctx W V P) (f g) : Still c (execNotify cfg c f g) := by
  refine ⟨(sameCtl_notify ..).1, ?_⟩
  unfold execNotify
  split
  · rfl
  · split
    · rfl
    · rfl
    · split <;> rfl

theorem still_setTarget (c : Ctx W V P) (t v) : Still c (setTarget c t v) := by
  cases t <;> exact ⟨rfl, rfl⟩

theorem twin_finishLoop {r : Place W V P} {c d : Ctx W V P} {o sus} :
    Twin cfg r c sus (.ret o (finishLoop cfg d)) (.ret o (finishLoop cfg (move r d))) := by
  rw [finishLoop_move]
  exact .over (finishLoop_spec cfg d).1

theorem exec_twin (c : Ctx W V P) (r : Place W V P) (i : Instr W V P) (hi : Plain i)
    (hl : r.stack.length = c.stack.length) :
    Twin cfg r c (suspends i c.view) (exec cfg c i) (exec cfg (move r c) i) := by
  cases i with
  | clear a d m => exact .cont rfl ⟨rfl, rfl⟩
  | keep fl =>
    simp only [exec, suspends]
    rw [build_move]
    have h1 := build_stack cfg c
    have h2 := build_parts cfg c
    rcases h : buildMessageId cfg c with ⟨_ | ⟨e, l⟩, c'⟩
    · rw [h] at h1 h2
      exact .cont rfl ⟨h1, h2⟩
    · rw [h] at h1 h2
      exact .ret rfl ⟨h1, h2⟩
  | fileInto a d f =>
    simp only [exec, suspends]
    rw [fileInto_move]
    exact twin_drain (still_fileInto ..)
  | redirect a d f =>
    simp only [exec, suspends]
    rw [redirect_move]
    exact twin_drain (still_redirect ..)
  | discard => exact .cont rfl ⟨rfl, rfl⟩
  | stop =>
    simp only [exec]
    exact twin_finish (d := { c with stack := [] }) rfl
  | reject f => exact .ret rfl ⟨rfl, rfl⟩
  | let_ t f =>
    simp only [exec, suspends]
    rw [show (move r c).view = c.view from rfl]
    cases f c.view with
    | done v w =>
      simp only
      rw [show ({ move r c with world := w } : Ctx W V P) = move r { c with world := w } from rfl, setTarget_move]
      have := still_setTarget { c with world := w } t v
      exact .cont rfl ⟨this.1, this.2⟩
    | call p w => exact .again rfl ⟨rfl, rfl⟩
  | edit f => exact .cont rfl ⟨rfl, rfl⟩
  | assign t f =>
    simp only [exec, suspends]
    rw [show (move r c).view = c.view from rfl, setTarget_move]
    exact twin_drain (still_setTarget ..)
  | editFlags t f =>
    simp only [exec, suspends]
    rw [show (move r c).view = c.view from rfl, setTarget_move]
    exact .cont rfl (still_setTarget ..)
  | notify f g =>
    simp only [exec, suspends]
    rw [notify_move]
    exact twin_drain (still_notify ..)
  | vacation f g => exact twin_drain (d := execVacation c f g) ⟨rfl, rfl⟩
  | «include» once opt name =>
    have he : execInclude cfg (move r c) once opt name = execInclude cfg c once opt name := by
      unfold execInclude
      rw [show (move r c).view = c.view from rfl, show (move r c).cache = c.cache from rfl,
        show (move r c).stack.length = c.stack.length from hl]
    simp only [exec, suspends, he]
    cases hx : execInclude cfg c once opt name with
    | cached s =>
      refine .push s rfl ?_
      unfold execInclude at hx
      split at hx
      · cases hx
      · rename_i n _
        split at hx
        · split at hx
          · split at hx
            · rename_i s' hs
              cases hx
              refine ⟨n, ?_⟩
              cases h1 : lookup c.cache n with
              | none => rw [h1] at hs; exact Or.inr (by simpa using hs)
              | some y => rw [h1] at hs; exact Or.inl (by simpa using hs)
            · cases hx
          · cases hx
        · cases hx
    | event n o => exact .ret rfl ⟨rfl, rfl⟩
    | error => exact twin_finishLoop
    | none => exact .cont rfl ⟨rfl, rfl⟩
  | require caps =>
    simp only [exec, suspends]
    split
    · exact .cont rfl ⟨rfl, rfl⟩
    · exact twin_finishLoop
  | error f => exact twin_finishLoop
  | invalid p => exact twin_finishLoop
  | _ => exact absurd hi (by simp [Plain])

/-- How evaluating an atomic test in a state `c` and its instruction, negated if `neg`, in `move r c`
compare. -/
inductive TwinV (r : Place W V P) (c : Ctx W V P) (neg sus : Bool) : Step W V P → Step W V P → Prop where
  | cont {c'} : sus = false → Still c c' →
      TwinV r c neg sus (.cont c') (.cont (move { r with testResult := c'.testResult ^^ neg } c'))
  | ret {o c'} : sus = false → Still c c' → (∀ n o', o ≠ .event (.includeScript n o')) →
      TwinV r c neg sus (.ret o c') (.ret o (move { r with testResult := c'.testResult ^^ neg } c'))
  | again {o c'} : sus = true → Still c c' → (∀ n o', o ≠ .event (.includeScript n o')) →
      TwinV r c neg sus (.ret o c') (.ret o (move { r with pos := r.pos - 1 } c'))
  | over {o c'} : c'.stack = [] → TwinV r c neg sus (.ret o c') (.ret o (move { r with stack := [] } c'))

theorem atom_twin (I : Interp cfg A T E) (c : Ctx W V P) (r : Place W V P) (a : Atom A T E) (neg : Bool) :
    TwinV r c neg (suspends (I.atom a) c.view) (exec cfg c (I.atom a)) (exec cfg (move r c) (I.lower (a.op neg))) := by
  cases a with
  | tru => cases neg <;> exact .cont rfl ⟨rfl, rfl⟩
  | fls => cases neg <;> exact .cont rfl ⟨rfl, rfl⟩
  | bad a =>
    show TwinV r c neg false (.ret (.error (.invalid (I.bad a))) (finishLoop cfg c))
      (.ret (.error (.invalid (I.bad a))) (finishLoop cfg (move r c)))
    rw [finishLoop_move]
    exact .over (finishLoop_spec cfg c).1
  | leaf t =>
    simp only [Interp.atom, Atom.op, Interp.lower, exec, suspends]
    rw [show (move r c).view = c.view from rfl]
    cases neg with
    | false =>
      simp only [negTest, Bool.false_eq_true, if_false]
      cases (I.test t c.view).res with
      | bool b => have := TwinV.cont (r := r) (c := c) (neg := false) (sus := false) (c' := { c with world := (I.test t c.view).world, matchv := (I.test t c.view).matchv, hasChanges := c.hasChanges || (I.test t c.view).changed, testResult := b }) rfl ⟨rfl, rfl⟩
                  simpa [move] using this
      | event p n => have := TwinV.ret (r := r) (c := c) (neg := false) (sus := false) (o := .event (.query p)) (c' := { c with world := (I.test t c.view).world, matchv := (I.test t c.view).matchv, hasChanges := c.hasChanges || (I.test t c.view).changed, testResult := n }) rfl ⟨rfl, rfl⟩ (by simp)
                     simpa [move] using this
      | error p =>
        simp only
        rw [show ∀ x y z, ({ move r c with world := x, matchv := y, hasChanges := z } : Ctx W V P) =
          move r { c with world := x, matchv := y, hasChanges := z } from fun _ _ _ => rfl, finishLoop_move]
        exact .over (finishLoop_spec ..).1
    | true =>
      simp only [negTest, if_true]
      cases h : (I.test t c.view).res with
      | bool b => have := TwinV.cont (r := r) (c := c) (neg := true) (sus := false) (c' := { c with world := (I.test t c.view).world, matchv := (I.test t c.view).matchv, hasChanges := c.hasChanges || (I.test t c.view).changed, testResult := b }) rfl ⟨rfl, rfl⟩
                  simpa [move, TestRes.neg] using this
      | event p n => have := TwinV.ret (r := r) (c := c) (neg := true) (sus := false) (o := .event (.query p)) (c' := { c with world := (I.test t c.view).world, matchv := (I.test t c.view).matchv, hasChanges := c.hasChanges || (I.test t c.view).changed, testResult := n }) rfl ⟨rfl, rfl⟩ (by simp)
                     simpa [move, TestRes.neg] using this
      | error p =>
        simp only [TestRes.neg]
        rw [show ∀ x y z, ({ move r c with world := x, matchv := y, hasChanges := z } : Ctx W V P) =
          move r { c with world := x, matchv := y, hasChanges := z } from fun _ _ _ => rfl, finishLoop_move]
        exact .over (finishLoop_spec ..).1
  | ev e =>
    simp only [Interp.atom, Atom.op, Interp.lower, exec, suspends]
    rw [show (move r c).view = c.view from rfl]
    cases neg with
    | false =>
      simp only [negExpr, Bool.false_eq_true, if_false]
      cases I.expr e c.view with
      | done v w => have := TwinV.cont (r := r) (c := c) (neg := false) (sus := false) (c' := { c with world := w, testResult := cfg.toBool v }) rfl ⟨rfl, rfl⟩
                    simpa [move] using this
      | call p w => exact .again (c' := { c with world := w, pos := c.pos - 1 }) rfl ⟨rfl, rfl⟩ (by simp)
    | true =>
      simp only [negExpr, if_true]
      cases I.expr e c.view with
      | done v w => have := TwinV.cont (r := r) (c := c) (neg := true) (sus := false) (c' := { c with world := w, testResult := cfg.toBool v }) rfl ⟨rfl, rfl⟩
                    simpa [move, I.not_spec] using this
      | call p w => exact .again (c' := { c with world := w, pos := c.pos - 1 }) rfl ⟨rfl, rfl⟩ (by simp)

end Sieve.Source
