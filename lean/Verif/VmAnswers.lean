import Verif.VmMessage

/-!
# The host's answers (C16)
-/

namespace Sieve.Vm

variable {W V P : Type}

/-! ## The value of a delegated test -/

/-- The host's answer as an input. -/
def answer (b : Bool) : Input W V P := if b then .true else .false

/-- No `let` and no flag action assigns an envelope field (see `late_envelope_flips`). -/
def NoLate : Instr W V P → Prop
  | .let_ (.envelope _) _ => False
  | .editFlags (.envelope _) _ => False
  | _ => True

theorem drain_empty {d c' : Ctx W V P} (h : drain d = .cont c') : c'.queue = [] := by
  obtain ⟨rfl, hq⟩ := drain_cont h
  exact hq

theorem popParts_queue : ∀ (n : Nat) (c : Ctx W V P), (popParts n c).queue = c.queue
  | 0, c => rfl
  | n + 1, c => by
    unfold popParts
    split
    · rfl
    · exact popParts_queue n { c with part := ‹Nat›, partIter := ‹List Nat›, partStack := ‹_› }

theorem setTarget_queue {c : Ctx W V P} {t : Target W V P} {v} (ht : ∀ f, t ≠ .envelope f) :
    (setTarget c t v).queue = c.queue := by
  cases t with
  | envelope f => exact absurd rfl (ht f)
  | _ => rfl

/-- Nothing is queued when an instruction goes on. -/
theorem exec_queue {cfg : Cfg W V P} {c c' : Ctx W V P} {i : Instr W V P} (hq : c.queue = [])
    (hi : NoLate i) (h : exec cfg c i = .cont c') : c'.queue = [] := by
  cases i with
  | jz t => simp only [exec] at h; injection h with h; subst h; split <;> exact hq
  | jnz t => simp only [exec] at h; injection h with h; subst h; split <;> exact hq
  | jmp t => simp only [exec] at h; injection h with h; subst h; exact hq
  | test f =>
    simp only [exec] at h
    split at h
    · injection h with h; subst h; exact hq
    · simp at h
    · simp at h
  | eval f =>
    simp only [exec] at h
    split at h
    · injection h with h; subst h; exact hq
    · simp at h
  | clear a b m => simp only [exec] at h; injection h with h; subst h; exact hq
  | keep fl =>
    simp only [exec] at h
    split at h
    · injection h with h; subst h; simpa using hq
    · simp at h
  | fileInto a b f => exact drain_empty h
  | redirect a b f => exact drain_empty h
  | discard => simp only [exec] at h; injection h with h; subst h; exact hq
  | stop => exact absurd h (finish_not_cont _ _ _)
  | reject f => simp [exec] at h
  | forEveryPart t =>
    simp only [exec] at h
    split at h
    · injection h with h; subst h; exact hq
    · split at h
      · injection h with h; subst h; exact hq
      · injection h with h; subst h; exact hq
  | forEveryPartPush => simp only [exec] at h; injection h with h; subst h; exact hq
  | forEveryPartPop n =>
    simp only [exec] at h; injection h with h; subst h
    rw [popParts_queue]; exact hq
  | «while» f t =>
    simp only [exec] at h
    split at h
    · injection h with h; subst h; split <;> exact hq
    · simp at h
  | let_ t f =>
    simp only [exec] at h
    split at h
    · injection h with h; subst h
      rw [setTarget_queue]
      · exact hq
      · rintro g rfl
        exact hi
    · simp at h
  | edit f => simp only [exec] at h; injection h with h; subst h; exact hq
  | assign t f => exact drain_empty h
  | editFlags t f =>
    simp only [exec] at h; injection h with h; subst h
    rw [setTarget_queue]
    · exact hq
    · rintro g rfl
      exact hi
  | notify f g => exact drain_empty h
  | vacation f g => exact drain_empty (d := execVacation c f g) h
  | «include» a b f =>
    simp only [exec] at h
    split at h
    · injection h with h; subst h; exact hq
    · simp at h
    · simp at h
    · injection h with h; subst h; exact hq
  | return_ =>
    simp only [exec] at h
    unfold leave at h
    split at h
    · exact absurd h (finish_not_cont _ _ _)
    · simp only at h
      split at h
      · exact absurd h (finish_not_cont _ _ _)
      · injection h with h; subst h; exact hq
  | require caps =>
    simp only [exec] at h
    split at h
    · injection h with h; subst h; exact hq
    · simp at h
  | error f => simp [exec] at h
  | invalid p => simp [exec] at h

theorem running_queue {cfg : Cfg W V P} {w : W} {h c} (hh : Hist cfg (Ctx.new w) h (.running c))
    (hreg : ∀ n s, cfg.registered n = some s → ∀ i ∈ s.instrs, NoLate i)
    (hhost : ∀ s ∈ scriptsOf h, ∀ i ∈ s.instrs, NoLate i) : c.queue = [] := by
  generalize hm : Mode.running c = m at hh
  induction hh generalizing c with
  | start => simp at hm
  | feedRet => simp at hm
  | passRet => simp at hm
  | @feedGo h c0 i c1 hh he ih =>
    injection hm with hm
    subst hm
    obtain ⟨rfl, hq, _⟩ := enter_cont he
    exact hq
  | @pass h c0 c1 hh he ih =>
    injection hm with hm
    subst hm
    have hsc : ∀ s ∈ scriptsOf h, ∀ i ∈ s.instrs, NoLate i :=
      fun s hs => hhost s (by rw [scriptsOf_append]; simp [hs])
    have hq := ih hsc rfl
    have hall := all_scripts (Q := fun s => ∀ i ∈ s.instrs, NoLate i) hreg hh hsc
    cases hs : c0.stack with
    | nil => simp [step, hs] at he
    | cons fr rest =>
      rcases step_cases (cfg := cfg) hs with ⟨_, i, hi, hfe, ⟨hl', e⟩ | ⟨hl', e⟩⟩ | ⟨_, _, e⟩ | ⟨_, _, e⟩
      · rw [e] at he; simp at he
      · rw [e] at he
        exact exec_queue (c := { c0 with numInstr := c0.numInstr + 1, pos := c0.pos + 1 }) hq
          (hall.1 fr (by simp only [modeCtx]; rw [hs]; simp) i (List.mem_of_getElem? hi)) he
      · rw [e] at he
        unfold leave at he
        rw [hs] at he
        simp only at he
        split at he
        · exact absurd he (finish_not_cont _ _ _)
        · injection he with he; subst he; exact hq
      · rw [e] at he; simp at he

/-- **C16 (1).** A test delegated to the host returns the query to the host; the host's answer `b`
then becomes the value of the test, negated exactly for a negated test, and execution goes on behind
the test in the same script and with the same variables.
The full claim would hold for scripts that assign envelope fields by `let` too (`late_envelope_flips`). -/
theorem answer_value_partial {cfg : Cfg W V P} {w : W} {h c f p isNot}
    (hh : Hist cfg (Ctx.new w) h (.running c))
    (hreg : ∀ n s, cfg.registered n = some s → ∀ i ∈ s.instrs, NoLate i)
    (hhost : ∀ s ∈ scriptsOf h, ∀ i ∈ s.instrs, NoLate i)
    (hf : fetch c = some (.test f)) (hl : c.numInstr < cfg.cpuLimit)
    (hr : (f c.view).res = .event p isNot) (b : Bool) :
    ∃ c1 c2, step cfg c = .ret (.event (.query p)) c1
      ∧ Hist cfg (Ctx.new w) (h ++ [.pass c, .output (.event (.query p)), .input (answer b)]) (.running c2)
      ∧ c2.testResult = (if isNot then !b else b)
      ∧ c2.pos = c.pos + 1 ∧ c2.stack = c.stack ∧ c2.locals = c.locals
      ∧ c2.world = (f c.view).world ∧ c2.matchv = (f c.view).matchv := by
  have hq := running_queue hh hreg hhost
  obtain ⟨fr, rest, hs⟩ := stack_of_fetch hf
  rcases step_cases (cfg := cfg) hs with ⟨_, i, hi, hfe, ⟨hl', e⟩ | ⟨hl', e⟩⟩ | ⟨hfn, _⟩ | ⟨hfn, _⟩
  · omega
  · rw [hf] at hfe
    injection hfe with hfe
    subst hfe
    have hr' : (f ({ c with numInstr := c.numInstr + 1, pos := c.pos + 1 } : Ctx W V P).view).res = .event p isNot := hr
    simp only [exec] at e
    rw [hr'] at e
    simp only at e
    generalize hc1 : ({ c with numInstr := c.numInstr + 1, pos := c.pos + 1, world := _, matchv := _, hasChanges := _, testResult := isNot } : Ctx W V P) = c1 at e
    refine ⟨c1, applyInput cfg c1 (answer b), e, ?_, ?_⟩
    · have h2 := Hist.feedGo (i := answer b) (c' := applyInput cfg c1 (answer b)) (Hist.passRet hh e) (by
        subst hc1
        unfold enter
        cases b <;> simp [answer, applyInput, hq, hs])
      simpa using h2
    · subst hc1
      cases b <;> cases isNot <;> exact ⟨rfl, rfl, rfl, rfl, rfl, rfl⟩
  · rw [hf] at hfn; simp at hfn
  · rw [hf] at hfn; simp at hfn

/-- A negated and a plain delegated test. -/
example : sees [start [askTest true, .jz 3, fileTo "A" false], .false, .true, .true]
    = some [.event (.query "mailboxexists"), .event (.fileInto "A" [] 0), .none, .none] := by decide
example : sees [start [askTest false, .jz 3, fileTo "A" false], .false, .true, .true]
    = some [.event (.query "mailboxexists"), .event (.keep [] 0), .none, .none] := by decide

/-! ## Answers that were not asked for -/

/-- Conditional and unconditional jumps. -/
def IsJump : Instr W V P → Prop
  | .jz _ => True
  | .jnz _ => True
  | .jmp _ => True
  | _ => False

/-- Instructions that set the test result. -/
def SetsResult : Instr W V P → Prop
  | .test _ => True
  | .eval _ => True
  | _ => False

/-- `D` is a set of positions at which the test result does not matter: no conditional jump is
reached from there before another test (`cond`, `jump`, `act`).  It contains the start and every
position behind an action; that is, conditional jumps only follow tests.  (`here` and `beyond` can
be assumed without loss of generality.) -/
structure Quiet (s : Script W V P) (D : Nat → Prop) : Prop where
  zero : D 0
  cond : ∀ p t, D p → s.instrs[p]? ≠ some (.jz t) ∧ s.instrs[p]? ≠ some (.jnz t)
  jump : ∀ p t, D p → s.instrs[p]? = some (.jmp t) → D t
  act : ∀ p i, s.instrs[p]? = some i → ¬ SetsResult i → ¬ IsJump i →
      D (p + 1) ∧ ∀ t, target i = some t → D t
  here : ∀ p i, s.instrs[p]? = some i → ¬ IsJump i → D p
  beyond : ∀ p, s.instrs.length ≤ p → D p

/-- The state with another test result. -/
def Ctx.alt (b : Bool) (c : Ctx W V P) : Ctx W V P := { c with testResult := b }

def Step.alt (b : Bool) : Step W V P → Step W V P
  | .cont c => .cont (c.alt b)
  | .ret o c => .ret o (c.alt b)

theorem build_alt (cfg : Cfg W V P) (c : Ctx W V P) (b) :
    buildMessageId cfg (c.alt b) = ((buildMessageId cfg c).1, (buildMessageId cfg c).2.alt b) := by
  unfold buildMessageId Ctx.alt
  split <;> rfl

theorem settle_alt (cfg : Cfg W V P) (c : Ctx W V P) (b) :
    settle cfg (c.alt b) = ((settle cfg c).1, (settle cfg c).2.alt b) := by
  unfold settle
  rw [show (c.alt b).final = c.final from rfl]
  split
  · rw [show ({ c.alt b with final := none } : Ctx W V P) = Ctx.alt b { c with final := none } from rfl, build_alt]
    simp only
    split <;> rfl
  · rfl
  · rfl

theorem finish_alt (cfg : Cfg W V P) (c : Ctx W V P) (b) :
    finish cfg (c.alt b) = (finish cfg c).alt b := by
  unfold finish
  rw [settle_alt]
  rcases settle cfg c with ⟨l, c'⟩
  rcases l with _ | ⟨e, _ | ⟨e', es⟩⟩ <;> rfl

theorem finishLoop_alt (cfg : Cfg W V P) (c : Ctx W V P) (b) :
    finishLoop cfg (c.alt b) = (finishLoop cfg c).alt b := by
  unfold finishLoop
  rw [show ({ c.alt b with stack := [] } : Ctx W V P) = Ctx.alt b { c with stack := [] } from rfl, settle_alt]
  rcases settle cfg { c with stack := [] } with ⟨l, c'⟩
  rcases l with _ | ⟨e, es⟩ <;> rfl

theorem drain_alt (c : Ctx W V P) (b) : drain (c.alt b) = (drain c).alt b := by
  unfold drain
  rw [show (c.alt b).queue = c.queue from rfl]
  split <;> rfl

theorem setTarget_alt (c : Ctx W V P) (t v b) : setTarget (c.alt b) t v = (setTarget c t v).alt b := by
  cases t <;> rfl

theorem popParts_alt (b) : ∀ (n : Nat) (c : Ctx W V P), popParts n (c.alt b) = (popParts n c).alt b
  | 0, c => rfl
  | n + 1, c => by
    unfold popParts
    rw [show (c.alt b).partStack = c.partStack from rfl]
    split
    · rfl
    · rename_i p it rest _
      exact popParts_alt b n { c with part := p, partIter := it, partStack := rest }

theorem leave_alt (cfg : Cfg W V P) (c : Ctx W V P) (b) : leave cfg (c.alt b) = (leave cfg c).alt b := by
  unfold leave
  rw [show (c.alt b).stack = c.stack from rfl]
  split
  · exact finish_alt ..
  · rename_i fr rest _
    simp only
    split
    · exact finish_alt cfg { c with stack := rest, pos := fr.prevPos, locals := fr.prevLocals, matchv := fr.prevMatch } b
    · rfl

theorem fileInto_alt (cfg : Cfg W V P) (c : Ctx W V P) (a d f b) :
    execFileInto cfg (c.alt b) a d f = (execFileInto cfg c a d f).alt b := by
  unfold execFileInto
  rw [build_alt]
  rfl

theorem redirect_alt (cfg : Cfg W V P) (c : Ctx W V P) (a d f b) :
    execRedirect cfg (c.alt b) a d f = (execRedirect cfg c a d f).alt b := by
  unfold execRedirect
  rw [show (c.alt b).view = c.view from rfl]
  split
  · rfl
  · rename_i x _
    by_cases h1 : c.numRedirects < cfg.maxRedirects ∧ c.numOut < cfg.maxOut ∧ cfg.received c.world < cfg.maxReceived
    · rw [if_pos h1, if_pos (show (c.alt b).numRedirects < cfg.maxRedirects ∧ (c.alt b).numOut < cfg.maxOut
        ∧ cfg.received (c.alt b).world < cfg.maxReceived from h1)]
      by_cases h2 : (!a && cfg.own c.world x) = true
      · rw [if_pos h2, if_pos (show (!a && cfg.own (c.alt b).world x) = true from h2)]
      · rw [if_neg h2, if_neg (show ¬ (!a && cfg.own (c.alt b).world x) = true from h2)]
        cases hc : c.hasChanges <;> simp [buildMessageId, Ctx.alt, hc]
    · rw [if_neg h1, if_neg (show ¬ ((c.alt b).numRedirects < cfg.maxRedirects ∧ (c.alt b).numOut < cfg.maxOut
        ∧ cfg.received (c.alt b).world < cfg.maxReceived) from h1)]

theorem notify_alt (cfg : Cfg W V P) (c : Ctx W V P) (f g b) :
    execNotify cfg (c.alt b) f g = (execNotify cfg c f g).alt b := by
  unfold execNotify
  rw [show (c.alt b).view = c.view from rfl, show (c.alt b).numOut = c.numOut from rfl]
  split
  · rfl
  · split
    · rfl
    · rfl
    · split <;> rfl

theorem include_alt (cfg : Cfg W V P) (c : Ctx W V P) (o op f b) :
    execInclude cfg (c.alt b) o op f = execInclude cfg c o op f := rfl

/-- Instructions other than conditional jumps do not look at the test result. -/
theorem exec_alt (cfg : Cfg W V P) (c : Ctx W V P) (i : Instr W V P) (b : Bool)
    (h1 : ∀ t, i ≠ .jz t) (h2 : ∀ t, i ≠ .jnz t) :
    exec cfg (c.alt b) i = exec cfg c i
    ∨ (exec cfg (c.alt b) i = (exec cfg c i).alt b
        ∧ (((∃ f, i = .test f) ∨ ∃ f, i = .eval f) →
            (exec cfg c i).ctx.stack = [] ∨ ((exec cfg c i).ctx.stack = c.stack ∧ (exec cfg c i).ctx.pos = c.pos - 1))) := by
  cases i with
  | jz t => exact absurd rfl (h1 t)
  | jnz t => exact absurd rfl (h2 t)
  | jmp t => exact Or.inr ⟨rfl, by rintro (⟨_, h⟩ | ⟨_, h⟩) <;> simp at h⟩
  | test f =>
    simp only [exec]
    rw [show (c.alt b).view = c.view from rfl]
    cases (f c.view).res with
    | bool x => exact Or.inl rfl
    | event p n => exact Or.inl rfl
    | error p =>
      right
      refine ⟨?_, fun _ => Or.inl (finishLoop_spec ..).1⟩
      simp only [Step.alt, ← finishLoop_alt]
      rfl
  | eval f =>
    simp only [exec]
    rw [show (c.alt b).view = c.view from rfl]
    cases f c.view with
    | done v w => exact Or.inl rfl
    | call p w => exact Or.inr ⟨rfl, fun _ => Or.inr ⟨rfl, rfl⟩⟩
  | clear a d m => exact Or.inr ⟨rfl, by rintro (⟨_, h⟩ | ⟨_, h⟩) <;> simp at h⟩
  | keep fl =>
    refine Or.inr ⟨?_, by rintro (⟨_, h⟩ | ⟨_, h⟩) <;> simp at h⟩
    simp only [exec]
    rw [build_alt]
    rcases buildMessageId cfg c with ⟨_ | ⟨e, l⟩, c'⟩ <;> rfl
  | fileInto a d f =>
    refine Or.inr ⟨?_, by rintro (⟨_, h⟩ | ⟨_, h⟩) <;> simp at h⟩
    simp only [exec]
    rw [fileInto_alt, drain_alt]
  | redirect a d f =>
    refine Or.inr ⟨?_, by rintro (⟨_, h⟩ | ⟨_, h⟩) <;> simp at h⟩
    simp only [exec]
    rw [redirect_alt, drain_alt]
  | discard => exact Or.inr ⟨rfl, by rintro (⟨_, h⟩ | ⟨_, h⟩) <;> simp at h⟩
  | stop =>
    refine Or.inr ⟨?_, by rintro (⟨_, h⟩ | ⟨_, h⟩) <;> simp at h⟩
    simp only [exec]
    exact finish_alt cfg { c with stack := [] } b
  | reject f => exact Or.inr ⟨rfl, by rintro (⟨_, h⟩ | ⟨_, h⟩) <;> simp at h⟩
  | forEveryPart t =>
    refine Or.inr ⟨?_, by rintro (⟨_, h⟩ | ⟨_, h⟩) <;> simp at h⟩
    simp only [exec]
    rw [show (c.alt b).partIter = c.partIter from rfl, show (c.alt b).partStack = c.partStack from rfl]
    split
    · rfl
    · split <;> rfl
  | forEveryPartPush => exact Or.inr ⟨rfl, by rintro (⟨_, h⟩ | ⟨_, h⟩) <;> simp at h⟩
  | forEveryPartPop n =>
    refine Or.inr ⟨?_, by rintro (⟨_, h⟩ | ⟨_, h⟩) <;> simp at h⟩
    simp only [exec]
    rw [popParts_alt]
    rfl
  | «while» f t =>
    refine Or.inr ⟨?_, by rintro (⟨_, h⟩ | ⟨_, h⟩) <;> simp at h⟩
    simp only [exec]
    rw [show (c.alt b).view = c.view from rfl]
    split
    · simp only [Step.alt]
      split <;> rfl
    · rfl
  | let_ t f =>
    refine Or.inr ⟨?_, by rintro (⟨_, h⟩ | ⟨_, h⟩) <;> simp at h⟩
    simp only [exec]
    rw [show (c.alt b).view = c.view from rfl]
    split
    · simp only [Step.alt, ← setTarget_alt]
      rfl
    · rfl
  | edit f => exact Or.inr ⟨rfl, by rintro (⟨_, h⟩ | ⟨_, h⟩) <;> simp at h⟩
  | assign t f =>
    refine Or.inr ⟨?_, by rintro (⟨_, h⟩ | ⟨_, h⟩) <;> simp at h⟩
    simp only [exec]
    rw [show (c.alt b).view = c.view from rfl, setTarget_alt, drain_alt]
  | editFlags t f =>
    refine Or.inr ⟨?_, by rintro (⟨_, h⟩ | ⟨_, h⟩) <;> simp at h⟩
    simp only [exec]
    rw [show (c.alt b).view = c.view from rfl, setTarget_alt]
    rfl
  | notify f g =>
    refine Or.inr ⟨?_, by rintro (⟨_, h⟩ | ⟨_, h⟩) <;> simp at h⟩
    simp only [exec]
    rw [notify_alt, drain_alt]
  | vacation f g =>
    refine Or.inr ⟨?_, by rintro (⟨_, h⟩ | ⟨_, h⟩) <;> simp at h⟩
    exact drain_alt (execVacation c f g) b
  | «include» a d f =>
    refine Or.inr ⟨?_, by rintro (⟨_, h⟩ | ⟨_, h⟩) <;> simp at h⟩
    simp only [exec, include_alt]
    split
    · rfl
    · rfl
    · simp only [Step.alt, finishLoop_alt]
    · rfl
  | return_ =>
    refine Or.inr ⟨?_, by rintro (⟨_, h⟩ | ⟨_, h⟩) <;> simp at h⟩
    simp only [exec]
    rw [leave_alt]
  | require caps =>
    refine Or.inr ⟨?_, by rintro (⟨_, h⟩ | ⟨_, h⟩) <;> simp at h⟩
    simp only [exec]
    split
    · rfl
    · simp only [Step.alt, finishLoop_alt]
  | error f =>
    refine Or.inr ⟨?_, by rintro (⟨_, h⟩ | ⟨_, h⟩) <;> simp at h⟩
    simp only [exec, Step.alt, finishLoop_alt]
    rfl
  | invalid p =>
    refine Or.inr ⟨?_, by rintro (⟨_, h⟩ | ⟨_, h⟩) <;> simp at h⟩
    simp only [exec, Step.alt, finishLoop_alt]

/-! ### Where the test result does not matter -/

variable (D : Script W V P → Nat → Prop)

/-- The test result does not matter at the current position. -/
def DeadAt (c : Ctx W V P) : Prop := ∀ fr rest, c.stack = fr :: rest → D fr.script c.pos

/-- It does not matter at the positions at which scripts will be resumed either. -/
def DeadBelow : List (Frame W V P) → Prop
  | [] => True
  | [_] => True
  | fr :: fr2 :: rest => D fr2.script fr.prevPos ∧ DeadBelow (fr2 :: rest)

/-- The scripts considered. -/
def Good (s : Script W V P) : Prop := Quiet s (D s) ∧ ∀ i ∈ s.instrs, NoLate i

variable {D}

theorem DeadBelow.tail {fr : Frame W V P} {rest} (h : DeadBelow D (fr :: rest)) : DeadBelow D rest := by
  cases rest with
  | nil => trivial
  | cons g rest => exact h.2

/-- One pass from a state in which the test result does not matter. -/
theorem dead_step {cfg : Cfg W V P} {w : W} {h c} (hh : Hist cfg (Ctx.new w) h (.running c))
    (hall : AllScripts (Good D) c) (hreg : ∀ n s, cfg.registered n = some s → Good D s)
    (hB : DeadBelow D c.stack) (hd : DeadAt D c) (b : Bool) :
    step cfg (c.alt b) = step cfg c ∨ (step cfg (c.alt b) = (step cfg c).alt b ∧ DeadAt D (step cfg c).ctx) := by
  have pop : ∀ {fr : Frame W V P} {rest} (c1 : Ctx W V P), DeadBelow D (fr :: rest) → c1.stack = rest → c1.pos = fr.prevPos → DeadAt D c1 := by
    intro fr rest c1 h0 h1 h2 fr' rest' h3
    rw [h1] at h3
    subst h3
    rw [h2]
    exact h0.1
  have nil : ∀ c1 : Ctx W V P, c1.stack = [] → DeadAt D c1 := by
    intro c1 h1 fr' rest' h3
    rw [h1] at h3
    simp at h3
  cases hs : c.stack with
  | nil =>
    right
    simp only [step, hs, show (c.alt b).stack = c.stack from rfl]
    exact ⟨rfl, nil _ hs⟩
  | cons fr rest =>
    have hs' : (c.alt b).stack = fr :: rest := hs
    have hG := (hall.1 fr (by rw [hs]; simp)).1
    have hdp := hd fr rest hs
    rcases step_cases (cfg := cfg) hs with ⟨_, i, hi, hfe, ⟨hl', e⟩ | ⟨hl', e⟩⟩ | ⟨hfn, hp, e⟩ | ⟨hfn, hp, e⟩ <;>
      rcases step_cases (cfg := cfg) hs' with ⟨hp2, i2, hi2, hfe2, ⟨hl2, e2⟩ | ⟨hl2, e2⟩⟩ | ⟨hfn2, hp2, e2⟩ | ⟨hfn2, hp2, e2⟩
    · right
      rw [e2, e]
      refine ⟨?_, nil _ (finishLoop_spec ..).1⟩
      simp only [Step.alt, ← finishLoop_alt]
      rfl
    · exact absurd hl2 (not_lt.mpr hl')
    · simp only [Ctx.alt] at hp2; omega
    · simp only [Ctx.alt] at hp2; omega
    · exact absurd hl' (not_lt.mpr hl2)
    · have : i2 = i := by
        have : some i2 = some i := hi2.symm.trans hi
        simpa using this
      subst this
      have hnz := hG.cond c.pos
      rcases exec_alt cfg { c with numInstr := c.numInstr + 1, pos := c.pos + 1 } i2 b
          (fun t ht => (hnz t hdp).1 (by rw [hi, ht])) (fun t ht => (hnz t hdp).2 (by rw [hi, ht])) with k | ⟨k, kt⟩
      · left
        rw [e2, e]
        exact k
      · right
        rw [e2, e]
        refine ⟨k, ?_⟩
        by_cases hte : (∃ f, i2 = .test f) ∨ ∃ f, i2 = .eval f
        · rcases kt hte with h | ⟨h, h'⟩
          · exact nil _ h
          · intro fr' rest' h3
            rw [h] at h3
            simp only [hs, List.cons.injEq] at h3
            obtain ⟨rfl, _⟩ := h3
            rw [h']
            exact hdp
        · have hact : (∀ t, i2 ≠ .jmp t) → D fr.script (c.pos + 1) ∧ ∀ t, target i2 = some t → D fr.script t := by
            intro hnj
            refine hG.act c.pos i2 hi ?_ ?_
            · intro hx
              cases i2 <;> simp only [SetsResult] at hx
              · exact hte (Or.inl ⟨_, rfl⟩)
              · exact hte (Or.inr ⟨_, rfl⟩)
            · intro hx
              cases i2 <;> simp only [IsJump] at hx
              · exact (hnz _ hdp).1 hi
              · exact (hnz _ hdp).2 hi
              · exact hnj _ rfl
          obtain ⟨k1, k2⟩ := running_inv hh
          have hfl := exec_flow (cfg := cfg) (c := { c with numInstr := c.numInstr + 1, pos := c.pos + 1 }) k1.finT (settled_quiet k2) i2
          by_cases hj : ∃ t, i2 = .jmp t
          · obtain ⟨t, rfl⟩ := hj
            intro fr' rest' h3
            simp only [exec, Step.ctx, hs, List.cons.injEq] at h3
            obtain ⟨rfl, _⟩ := h3
            exact hG.jump c.pos t hdp hi
          -- positions reached by an instruction that stays in the script
          have stay : ∀ c1 : Ctx W V P, c1.stack = c.stack → (c1.pos = c.pos + 1 ∨ target i2 = some c1.pos) →
              DeadAt D c1 := by
            intro c1 h1 h2 fr' rest' h3
            rw [h1, hs] at h3
            simp only [List.cons.injEq] at h3
            obtain ⟨rfl, _⟩ := h3
            rcases h2 with h2 | h2
            · rw [h2]
              exact (hact (fun t ht => hj ⟨t, ht⟩)).1
            · exact (hact (fun t ht => hj ⟨t, ht⟩)).2 _ h2
          cases hex : exec cfg { c with numInstr := c.numInstr + 1, pos := c.pos + 1 } i2 with
          | cont c1 =>
            rw [hex] at hfl
            rcases hfl with ⟨a, _, p⟩ | hpu | ⟨_, fr', rest', a, _, rfl⟩
            · exact stay c1 a p
            · obtain ⟨_, _, f, n, s, _, _, h3, _, _, rfl⟩ := hpu.push
              have hsG := allScripts_push hreg (c := { c with numInstr := c.numInstr + 1, pos := c.pos + 1 }) hall hpu
              intro fr' rest' h4
              simp only [Step.ctx, pushScript, List.cons.injEq] at h4
              obtain ⟨rfl, _⟩ := h4
              exact (hsG.1 ⟨s, _, _, _⟩ (by simp [pushScript])).1.zero
            · simp only at a
              rw [a] at hB
              exact pop _ hB rfl rfl
          | ret o c1 =>
            rw [hex] at hfl
            rcases hfl.2.2 with ⟨a, p, _⟩ | ⟨a, _⟩
            · rcases p with p | ⟨p, hr⟩
              · exact stay c1 a (Or.inl p)
              · intro fr' rest' h3
                simp only [Step.ctx] at h3
                rw [a] at h3
                simp only [hs, List.cons.injEq] at h3
                obtain ⟨rfl, _⟩ := h3
                simp only [Step.ctx]
                rw [p]
                exact hdp
            · exact nil _ a
    · simp only [Ctx.alt] at hp2; omega
    · simp only [Ctx.alt] at hp2; omega
    · simp only [Ctx.alt] at hp2; omega
    · simp only [Ctx.alt] at hp2; omega
    · right
      rw [e2, e, leave_alt]
      refine ⟨rfl, ?_⟩
      unfold leave
      rw [hs]
      simp only
      split
      · rename_i hr
        simp only [List.isEmpty_iff] at hr
        subst hr
        cases hfin : finish cfg { c with stack := [], pos := fr.prevPos, locals := fr.prevLocals, matchv := fr.prevMatch } with
        | cont c' => exact absurd hfin (finish_not_cont _ _ _)
        | ret o c' => exact nil _ (finish_ret hfin).1.1
      · rw [hs] at hB
        exact pop _ hB rfl rfl
    · simp only [Ctx.alt] at hp2; omega
    · simp only [Ctx.alt] at hp2; omega
    · simp only [Ctx.alt] at hp2; omega
    · simp only [Ctx.alt] at hp2; omega
    · right
      rw [e2, e]
      exact ⟨rfl, hd⟩

/-- What a pass leaves behind. -/
theorem dead_pass {cfg : Cfg W V P} {w : W} {h c} (hh : Hist cfg (Ctx.new w) h (.running c))
    (hall : AllScripts (Good D) c) (hB : DeadBelow D c.stack) (hq : c.queue = []) :
    match step cfg c with
    | .cont c' => DeadBelow D c'.stack ∧ c'.queue = []
    | .ret o c' => DeadBelow D c'.stack ∧ (c'.queue ≠ [] → DeadAt D c')
        ∧ ((∀ p, o ≠ .event (.query p)) → DeadAt D c') := by
  obtain ⟨k1, k2⟩ := running_inv hh
  have nil : ∀ c1 : Ctx W V P, c1.stack = [] → DeadBelow D c1.stack ∧ DeadAt D c1 := by
    intro c1 h1
    refine ⟨by rw [h1]; trivial, ?_⟩
    intro fr' rest' h3
    rw [h1] at h3
    simp at h3
  cases hs : c.stack with
  | nil =>
    simp only [step, hs]
    exact ⟨trivial, fun h => absurd hq h, fun _ => (nil c hs).2⟩
  | cons fr rest =>
    have hG := hall.1 fr (by rw [hs]; simp)
    rcases step_flow (cfg := cfg) k1.finT (settled_quiet k2) hs with ⟨i, hfe, _, e, hfl⟩ | ⟨o, c1, e, _, hst, _⟩ | ⟨hne, e⟩
    · have hi : fr.script.instrs[c.pos]? = some i := by
        unfold fetch at hfe
        rw [hs] at hfe
        exact hfe
      cases hex : step cfg c with
      | cont c1 =>
        simp only
        rw [hex] at hfl
        rw [e] at hex
        refine ⟨?_, exec_queue (c := { c with numInstr := c.numInstr + 1, pos := c.pos + 1 }) hq (hG.2 i (List.mem_of_getElem? hi)) hex⟩
        rcases hfl with ⟨a, _, p⟩ | hpu | ⟨_, fr', rest', a, _, rfl⟩
        · rw [a]; exact hB
        · obtain ⟨_, _, f, n, s, rfl, _, h3, _, _, rfl⟩ := hpu.push
          simp only [pushScript]
          rw [hs] at hB ⊢
          exact ⟨(hG.1.act _ _ hi (by simp [SetsResult]) (by simp [IsJump])).1, hB⟩
        · simp only at a
          rw [a] at hB
          exact hB.tail
      | ret o c1 =>
        simp only
        rw [hex] at hfl
        rcases hfl.2.2 with ⟨a, p, _⟩ | ⟨a, _⟩
        · refine ⟨by rw [a]; exact hB, ?_⟩
          have atP : ∀ {c1 : Ctx W V P}, c1.stack = c.stack → D fr.script c1.pos → DeadAt D c1 := by
            intro c1 h1 h2 fr' rest' h3
            rw [h1, hs] at h3
            simp only [List.cons.injEq] at h3
            obtain ⟨rfl, _⟩ := h3
            exact h2
          by_cases ht : SetsResult i
          · cases i <;> simp only [SetsResult] at ht
            · rw [e] at hex
              simp only [exec] at hex
              split at hex
              · simp at hex
              · injection hex with h1 h2
                subst h1; subst h2
                exact ⟨fun h => absurd hq h, fun h => absurd rfl (h _)⟩
              · injection hex with h1 h2
                subst h2
                have hst := (finishLoop_spec (W := W) (V := V) (P := P) cfg _).1.symm.trans a
                simp only [hs] at hst
                simp at hst
            · rw [e] at hex
              simp only [exec] at hex
              split at hex
              · simp at hex
              · injection hex with h1 h2
                subst h1; subst h2
                refine ⟨fun h => absurd hq h, fun _ => atP rfl ?_⟩
                exact hG.1.here _ _ hi (by simp [IsJump])
          · have hj : ¬ IsJump i := by
              intro hj
              rw [e] at hex
              cases i <;> simp only [IsJump] at hj <;> simp [exec] at hex
            have hd : DeadAt D c1 := by
              refine atP a ?_
              rcases p with p | ⟨p, _⟩
              · rw [p]; exact (hG.1.act _ _ hi ht hj).1
              · rw [p]; exact hG.1.here _ _ hi hj
            exact ⟨fun _ => hd, fun _ => hd⟩
        · exact ⟨(nil c1 a).1, fun _ => (nil c1 a).2, fun _ => (nil c1 a).2⟩
    · rw [e]
      simp only
      rcases hst with a | ⟨rfl, hlen⟩
      · exact ⟨(nil c1 a).1, fun _ => (nil c1 a).2, fun _ => (nil c1 a).2⟩
      · refine ⟨hB, fun h => absurd hq h, fun _ => ?_⟩
        intro fr' rest' h3
        rw [hs] at h3
        simp only [List.cons.injEq] at h3
        obtain ⟨rfl, _⟩ := h3
        exact hG.1.beyond _ (by omega)
    · rw [e]
      simp only
      rw [hs] at hB
      exact ⟨hB.tail, hq⟩

/-- The invariant of sessions. -/
theorem dead_session {cfg : Cfg W V P} {w : W} {h m} (hh : Hist cfg (Ctx.new w) h m)
    (hp : h ≠ [] → Protocol h) (hreg : ∀ n s, cfg.registered n = some s → Good D s)
    (hhost : ∀ s ∈ scriptsOf h, Good D s) :
    match m with
    | .running c => DeadBelow D c.stack ∧ c.queue = []
    | .waiting c => DeadBelow D c.stack ∧ (c.queue ≠ [] → DeadAt D c) ∧ (Asked h → DeadAt D c) := by
  have push : ∀ (c : Ctx W V P) s n, DeadBelow D c.stack → DeadAt D c → Good D s →
      DeadBelow D (applyInput cfg c (.script n s)).stack ∧ DeadAt D (applyInput cfg c (.script n s)) := by
    intro c s n h1 h2 h3
    simp only [applyInput]
    split
    · constructor
      · simp only [pushScript]
        cases hst : c.stack with
        | nil => trivial
        | cons g rest => exact ⟨h2 g rest hst, by rw [← hst]; exact h1⟩
      · intro fr rest h
        simp only [pushScript, List.cons.injEq] at h
        obtain ⟨rfl, _⟩ := h
        exact h3.1.zero
    · exact ⟨h1, h2⟩
  have := session_rule (cfg := cfg) (w := w) (Q := Good D)
    (Ir := fun c => DeadBelow D c.stack ∧ c.queue = [])
    (Iw := fun c => DeadBelow D c.stack ∧ (c.queue ≠ [] → DeadAt D c))
    (A := DeadAt D) hreg
    ⟨trivial, fun h => absurd rfl h⟩
    (by
      intro n s _ hs
      obtain ⟨h1, h2⟩ := push (Ctx.new w) s n trivial (by intro fr rest h; simp [Ctx.new] at h) hs
      exact ⟨h1, fun _ => h2⟩)
    (by
      intro c i hi hc
      cases i with
      | script n s => exact absurd rfl (hi n s)
      | _ => exact hc)
    (by
      intro c n s hc ha hs
      obtain ⟨h1, h2⟩ := push c s n hc.1 ha hs
      exact ⟨h1, fun _ => h2⟩)
    (by
      rintro c e q he ⟨h1, h2⟩
      exact ⟨h1, fun _ => h2 (by rw [he]; simp)⟩)
    (by
      rintro c hq ⟨h1, h2⟩
      exact ⟨h1, hq⟩)
    (by
      rintro h c c' hh hall ⟨hB, hq⟩ he
      have := dead_pass hh hall hB hq
      rw [he] at this
      exact this)
    (by
      rintro h c o c' hh hall ⟨hB, hq⟩ he
      have := dead_pass hh hall hB hq
      rw [he] at this
      obtain ⟨h1, h2, h3⟩ := this
      refine ⟨⟨h1, h2⟩, ?_⟩
      rintro n op rfl
      exact h3 (by simp))
    hh hp hhost
  cases m with
  | running c => exact this
  | waiting c => exact ⟨this.1.1, this.1.2, this.2.2⟩

/-- After any output other than a query, the test result does not matter. -/
theorem dead_after {cfg : Cfg W V P} {w : W} {g o c} (hh : Hist cfg (Ctx.new w) (g ++ [.output o]) (.waiting c))
    (hp : Protocol (g ++ [.output o])) (hreg : ∀ n s, cfg.registered n = some s → Good D s)
    (hhost : ∀ s ∈ scriptsOf (g ++ [.output o]), Good D s) (ho : ∀ p, o ≠ .event (.query p)) :
    DeadAt D c := by
  have nilD : ∀ c1 : Ctx W V P, c1.stack = [] → DeadAt D c1 := by
    intro c1 h1 fr' rest' h3
    rw [h1] at h3
    simp at h3
  generalize hk : g ++ [.output o] = k at hh
  generalize hm : Mode.waiting c = m at hh
  cases hh with
  | start => simp at hk
  | @feedRet h c0 i o2 c1 hh he =>
    injection hm with hm
    subst hm
    rw [show h ++ [Label.input i, .output o2] = (h ++ [.input i]) ++ [.output o2] by simp] at hk
    obtain ⟨rfl, hk'⟩ := List.append_inj' hk rfl
    simp only [List.cons.injEq, Label.output.injEq, and_true] at hk'
    subst hk'
    have hsc : ∀ s ∈ scriptsOf h, Good D s := fun s hs => hhost s (by
      rw [scriptsOf_append, scriptsOf_append]; simp [hs])
    have hI := dead_session hh (fun hne => protocol_prefix (b := [.input i, .output o]) (by simpa using hp) hne) hreg hsc
    rcases enter_ret he with ⟨ev, q, hq, rfl, rfl⟩ | ⟨hq, hst, rfl, rfl⟩
    · have hq0 : c0.queue ≠ [] := by
        have : (applyInput cfg c0 i).queue = c0.queue := by
          cases i with
          | script n s => simp only [applyInput]; split <;> rfl
          | _ => rfl
        rw [← this, hq]
        simp
      have hd := hI.2.1 hq0
      cases i with
      | script n s =>
        have hs := hhost s (by rw [scriptsOf_append, scriptsOf_append]; simp [scriptsOf])
        simp only [applyInput]
        split
        · intro fr rest h
          simp only [pushScript, List.cons.injEq] at h
          obtain ⟨rfl, _⟩ := h
          exact hs.1.zero
        · exact hd
      | _ => exact hd
    · exact nilD _ hst
  | feedGo => simp at hm
  | pass => simp at hm
  | @passRet h c0 o2 c1 hh he =>
    injection hm with hm
    subst hm
    rw [show h ++ [Label.pass c0, .output o2] = (h ++ [.pass c0]) ++ [.output o2] by simp] at hk
    obtain ⟨rfl, hk'⟩ := List.append_inj' hk rfl
    simp only [List.cons.injEq, Label.output.injEq, and_true] at hk'
    subst hk'
    have hsc : ∀ s ∈ scriptsOf h, Good D s := fun s hs => hhost s (by
      rw [scriptsOf_append, scriptsOf_append]; simp [hs])
    have hI := dead_session hh (fun hne => protocol_prefix (b := [.pass c0, .output o]) (by simpa using hp) hne) hreg hsc
    have := dead_pass hh (all_scripts hreg hh hsc) hI.1 hI.2
    rw [he] at this
    exact this.2.2 ho

/-- A history without the test results. -/
def Label.blind : Label W V P → Label W V P
  | .pass c => .pass (c.alt false)
  | l => l

/-- The same state up to a test result that does not matter. -/
def Alike (D : Script W V P → Nat → Prop) (c c' : Ctx W V P) : Prop :=
  c' = c ∨ ∃ b, c' = c.alt b ∧ DeadAt D c

def AlikeM (D : Script W V P → Nat → Prop) : Mode W V P → Mode W V P → Prop
  | .running c, .running c' => Alike D c c'
  | .waiting c, .waiting c' => Alike D c c'
  | _, _ => False

theorem alike_input {cfg : Cfg W V P} {c c' : Ctx W V P} (h : Alike D c c') (i) :
    Alike D (applyInput cfg c i) (applyInput cfg c' i) := by
  rcases h with rfl | ⟨b, rfl, hd⟩
  · exact Or.inl rfl
  · cases i with
    | script n s =>
      simp only [applyInput]
      split
      · exact Or.inl rfl
      · exact Or.inr ⟨b, rfl, hd⟩
    | true => exact Or.inr ⟨b ^^ true, rfl, hd⟩
    | false => exact Or.inr ⟨b ^^ false, rfl, hd⟩
    | fncResult v => exact Or.inr ⟨b, rfl, hd⟩

theorem sim {cfg : Cfg W V P} {w : W} {g : List (Label W V P)} {c0 c0' : Ctx W V P} (hg : g ≠ [])
    (h0 : Hist cfg (Ctx.new w) g (.waiting c0)) (hreg : ∀ n s, cfg.registered n = some s → Good D s)
    (ha : Alike D c0 c0') {k m} (hh : Hist cfg c0 k m) (hp : Protocol (g ++ k))
    (hhost : ∀ s ∈ scriptsOf (g ++ k), Good D s) :
    ∃ k' m', Hist cfg c0' k' m' ∧ k'.map Label.blind = k.map Label.blind ∧ AlikeM D m m' := by
  have pre : ∀ {a b : List (Label W V P)}, Protocol (g ++ (a ++ b)) → Protocol (g ++ a) := by
    intro a b h
    exact protocol_prefix (b := b) (by simpa using h) (by simp [hg])
  have scr : ∀ {a b : List (Label W V P)}, (∀ s ∈ scriptsOf (g ++ (a ++ b)), Good D s) → ∀ s ∈ scriptsOf (g ++ a), Good D s := by
    intro a b h s hs
    refine h s ?_
    rw [← List.append_assoc, scriptsOf_append]
    simp [hs]
  -- one pass
  have pass : ∀ {h c c1 : _}, Hist cfg c0 h (.running c) → Alike D c c1 → Protocol (g ++ h) →
      (∀ s ∈ scriptsOf (g ++ h), Good D s) →
      step cfg c1 = step cfg c ∨ ∃ b, step cfg c1 = (step cfg c).alt b ∧ DeadAt D (step cfg c).ctx := by
    intro h c c1 hh hal hp hsc
    rcases hal with rfl | ⟨b, rfl, hd⟩
    · exact Or.inl rfl
    · have hh' := hist_append h0 hh
      have hI := dead_session hh' (fun _ => hp) hreg hsc
      rcases dead_step hh' (all_scripts hreg hh' hsc) hreg hI.1 hd b with h | h
      · exact Or.inl h
      · exact Or.inr ⟨b, h⟩
  have bl : ∀ {c c1 : Ctx W V P}, Alike D c c1 → Label.blind (.pass c1) = Label.blind (.pass c) := by
    rintro c c1 (rfl | ⟨b, rfl, _⟩)
    · rfl
    · rfl
  induction hh with
  | start => exact ⟨[], .waiting c0', Hist.start, rfl, ha⟩
  | @feedRet h c i o c' hh he ih =>
    obtain ⟨k', m', h1, h2, h3⟩ := ih (pre hp) (scr hhost)
    cases m' with
    | running c1 => exact h3.elim
    | waiting c1 =>
      have h4 := alike_input (cfg := cfg) h3 i
      have h5 : ∃ c1', enter (applyInput cfg c1 i) = .ret o c1' ∧ Alike D c' c1' := by
        rcases h4 with h4 | ⟨b, h4, hd⟩
        · rw [h4]; exact ⟨c', he, Or.inl rfl⟩
        · rw [h4]
          rcases enter_ret he with ⟨ev, q, hq, rfl, rfl⟩ | ⟨hq, hst, rfl, rfl⟩
          · refine ⟨Ctx.alt b { applyInput cfg c i with queue := q }, ?_, Or.inr ⟨b, rfl, hd⟩⟩
            unfold enter
            rw [show (Ctx.alt b (applyInput cfg c i)).queue = (applyInput cfg c i).queue from rfl, hq]
            rfl
          · refine ⟨Ctx.alt b (applyInput cfg c i), ?_, Or.inr ⟨b, rfl, hd⟩⟩
            unfold enter
            rw [show (Ctx.alt b (applyInput cfg c i)).queue = (applyInput cfg c i).queue from rfl, hq]
            simp only
            rw [if_pos (by rw [show (Ctx.alt b (applyInput cfg c i)).stack = (applyInput cfg c i).stack from rfl, hst]; rfl)]
      obtain ⟨c1', h6, h7⟩ := h5
      exact ⟨_, _, Hist.feedRet h1 h6, by simp [h2], h7⟩
  | @feedGo h c i c' hh he ih =>
    obtain ⟨k', m', h1, h2, h3⟩ := ih (pre hp) (scr hhost)
    cases m' with
    | running c1 => exact h3.elim
    | waiting c1 =>
      have h4 := alike_input (cfg := cfg) h3 i
      obtain ⟨rfl, hq, hst⟩ := enter_cont he
      have h5 : enter (applyInput cfg c1 i) = .cont (applyInput cfg c1 i) := by
        have h6 : (applyInput cfg c1 i).queue = [] ∧ (applyInput cfg c1 i).stack ≠ [] := by
          rcases h4 with h4 | ⟨b, h4, hd⟩ <;> rw [h4] <;> exact ⟨hq, hst⟩
        unfold enter
        rw [h6.1]
        simp only
        rw [if_neg (by simpa using h6.2)]
      exact ⟨_, _, Hist.feedGo h1 h5, by simp [h2], h4⟩
  | @pass h c c' hh he ih =>
    obtain ⟨k', m', h1, h2, h3⟩ := ih (pre hp) (scr hhost)
    cases m' with
    | waiting c1 => exact h3.elim
    | running c1 =>
      rcases pass hh h3 (pre hp) (scr hhost) with h4 | ⟨b, h4, hd⟩
      · rw [he] at h4
        exact ⟨_, _, Hist.pass h1 h4, by rw [List.map_append, List.map_append, h2, List.map_singleton, List.map_singleton, bl h3], Or.inl rfl⟩
      · rw [he] at h4 hd
        exact ⟨_, _, Hist.pass h1 h4, by rw [List.map_append, List.map_append, h2, List.map_singleton, List.map_singleton, bl h3], Or.inr ⟨b, rfl, hd⟩⟩
  | @passRet h c o c' hh he ih =>
    obtain ⟨k', m', h1, h2, h3⟩ := ih (pre hp) (scr hhost)
    cases m' with
    | waiting c1 => exact h3.elim
    | running c1 =>
      rcases pass hh h3 (pre hp) (scr hhost) with h4 | ⟨b, h4, hd⟩
      · rw [he] at h4
        refine ⟨_, _, Hist.passRet h1 h4, ?_, Or.inl rfl⟩
        simp only [List.map_append, h2, List.map_cons, List.map_nil, bl h3]
      · rw [he] at h4 hd
        refine ⟨_, _, Hist.passRet h1 h4, ?_, Or.inr ⟨b, rfl, hd⟩⟩
        simp only [List.map_append, h2, List.map_cons, List.map_nil, bl h3]

/-- Starting with the answer "no" instead of "yes" is starting in the state with the other result. -/
theorem other_answer {cfg : Cfg W V P} {c : Ctx W V P} {k m}
    (hh : Hist cfg (c.alt (!c.testResult)) k m) (b : Bool) : ∀ {t}, k = .input (answer b) :: t →
    Hist cfg c (.input (answer (!b)) :: t) m := by
  have ea : applyInput cfg (c.alt (!c.testResult)) (answer b) = applyInput cfg c (answer (!b)) := by
    cases b <;> cases hc : c.testResult <;> simp [answer, applyInput, Ctx.alt, hc]
  induction hh with
  | start => intro t h; simp at h
  | @feedRet h c1 i o c' hh he ih =>
    intro t ht
    rcases h with _ | ⟨x, h⟩
    · simp only [List.nil_append, List.cons.injEq, Label.input.injEq] at ht
      obtain ⟨rfl, rfl⟩ := ht
      have := hist_nil hh
      subst this
      rw [ea] at he
      simpa using Hist.feedRet (Hist.start (cfg := cfg)) he
    · simp only [List.cons_append, List.cons.injEq] at ht
      obtain ⟨rfl, rfl⟩ := ht
      simpa using Hist.feedRet (ih rfl) he
  | @feedGo h c1 i c' hh he ih =>
    intro t ht
    rcases h with _ | ⟨x, h⟩
    · simp only [List.nil_append, List.cons.injEq, Label.input.injEq] at ht
      obtain ⟨rfl, rfl⟩ := ht
      have := hist_nil hh
      subst this
      rw [ea] at he
      simpa using Hist.feedGo (Hist.start (cfg := cfg)) he
    · simp only [List.cons_append, List.cons.injEq] at ht
      obtain ⟨rfl, rfl⟩ := ht
      simpa using Hist.feedGo (ih rfl) he
  | @pass h c1 c' hh he ih =>
    intro t ht
    rcases h with _ | ⟨x, h⟩
    · simp at ht
    · simp only [List.cons_append, List.cons.injEq] at ht
      obtain ⟨rfl, rfl⟩ := ht
      simpa using Hist.pass (ih rfl) he
  | @passRet h c1 o c' hh he ih =>
    intro t ht
    rcases h with _ | ⟨x, h⟩
    · simp at ht
    · simp only [List.cons_append, List.cons.injEq] at ht
      obtain ⟨rfl, rfl⟩ := ht
      simpa using Hist.passRet (ih rfl) he

/-- **C16 (2).** In scripts whose conditional jumps only follow tests, the answer to anything but a
query of a test does not matter: with the other answer, the same instructions are executed in the
same states (up to the test result) and the host receives the same outputs. -/
theorem unasked_answer {cfg : Cfg W V P} {w : W} {g o k m c0} (b : Bool)
    (h0 : Hist cfg (Ctx.new w) (g ++ [.output o]) (.waiting c0))
    (hh : Hist cfg c0 (.input (answer b) :: k) m)
    (hp : Protocol ((g ++ [.output o]) ++ (.input (answer b) :: k)))
    (hreg : ∀ n s, cfg.registered n = some s → Good D s)
    (hhost : ∀ s ∈ scriptsOf ((g ++ [.output o]) ++ (.input (answer b) :: k)), Good D s)
    (ho : ∀ p, o ≠ .event (.query p)) :
    ∃ k' m', Hist cfg c0 (.input (answer (!b)) :: k') m' ∧ k'.map Label.blind = k.map Label.blind
      ∧ outputs k' = outputs k := by
  have hd : DeadAt D c0 := dead_after h0 (protocol_prefix hp (by simp)) hreg
    (fun s hs => hhost s (by rw [scriptsOf_append]; simp [hs])) ho
  obtain ⟨k', m', h1, h2, _⟩ := sim (by simp) h0 hreg (Or.inr ⟨!c0.testResult, rfl, hd⟩) hh hp hhost
  rcases k' with _ | ⟨x, k'⟩
  · simp at h2
  · simp only [List.map_cons, List.cons.injEq] at h2
    have hx : x = .input (answer b) := by
      have := h2.1
      cases x <;> simp_all [Label.blind]
    subst hx
    refine ⟨k', m', other_answer h1 b rfl, h2.2, ?_⟩
    have ho : ∀ l : List (Label W V P), outputs l = outputs (l.map Label.blind) := by
      intro l
      induction l with
      | nil => rfl
      | cons a l ih =>
        cases a <;> simp_all [outputs, Label.blind]
    rw [ho k', h2.2, ← ho k]

/-- Non-vacuity: `if mailboxexists ... { fileinto } fileinto`, with the test result immaterial
everywhere but at the conditional jump. -/
example : Good (fun _ p => p ≠ 1) (script [askTest true, .jz 3, fileTo "A" true, fileTo "B" true]) := by
  refine ⟨⟨by simp, ?_, ?_, ?_, ?_, ?_⟩, ?_⟩
  · intro p t hp
    match p with
    | 0 => simp [script, askTest]
    | 1 => exact absurd rfl hp
    | 2 => simp [script, fileTo]
    | 3 => simp [script, fileTo]
    | p + 4 => simp [script]
  · intro p t hp h
    match p with
    | 0 => simp [script, askTest] at h
    | 1 => simp [script] at h
    | 2 => simp [script, fileTo] at h
    | 3 => simp [script, fileTo] at h
    | p + 4 => simp [script] at h
  · intro p i h h1 h2
    match p with
    | 0 =>
      simp only [script, List.getElem?_cons_zero, Option.some.injEq] at h
      subst h
      exact absurd trivial h1
    | 1 =>
      simp only [script, List.getElem?_cons_succ, List.getElem?_cons_zero, Option.some.injEq] at h
      subst h
      exact absurd trivial h2
    | 2 =>
      simp only [script, List.getElem?_cons_succ, List.getElem?_cons_zero, Option.some.injEq] at h
      subst h
      simp [target, fileTo]
    | 3 =>
      simp only [script, List.getElem?_cons_succ, List.getElem?_cons_zero, Option.some.injEq] at h
      subst h
      simp [target, fileTo]
    | p + 4 => simp [script] at h
  · rintro p i h h1 rfl
    simp only [script, List.getElem?_cons_succ, List.getElem?_cons_zero, Option.some.injEq] at h
    subst h
    exact h1 trivial
  · rintro p h rfl
    simp [script] at h
  · intro i hi
    simp only [script, List.mem_cons, List.not_mem_nil, or_false] at hi
    rcases hi with rfl | rfl | rfl | rfl <;> trivial

/-- The hypothesis on envelope assignments is needed.  After `let` has assigned an envelope field,
the `SetEnvelope` event is only returned to the host after the query of the next test, and the
host's answer to it is applied to the value of that test: the folder exists (`true`), but whether
the message is filed depends on the answer to `SetEnvelope`. -/
theorem late_envelope_flips :
    sees [start [.let_ (.envelope fun w _ => (w, "from")) (fun v => .done 0 v.world),
        askTest false, .jz 4, fileTo "A" false], .true, .true, .true]
      = some [.event (.query "mailboxexists"), .event (.setEnvelope "from"), .event (.keep [] 0), .none]
    ∧ sees [start [.let_ (.envelope fun w _ => (w, "from")) (fun v => .done 0 v.world),
        askTest false, .jz 4, fileTo "A" false], .true, .false, .true]
      = some [.event (.query "mailboxexists"), .event (.setEnvelope "from"), .event (.fileInto "A" [] 0), .none] := by
  decide

end Sieve.Vm
