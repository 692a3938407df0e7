import Verif.VmModel

/-!
# Interpreter: histories of a session, and basic facts about single steps
-/

namespace Sieve.Vm

variable {W V P : Type}

/-! ## Histories -/

/-- What happens in a session: the host calls `run` with an input, the interpreter makes a pass
through its loop in a state, `run` returns a value. -/
inductive Label (W V P : Type) where
  | input (i : Input W V P)
  | pass (c : Ctx W V P)
  | output (o : Out P)

/-- Control is with the host or with the interpreter. -/
inductive Mode (W V P : Type) where
  | waiting (c : Ctx W V P)
  | running (c : Ctx W V P)

/-- `Hist cfg c0 h m`: starting with a context `c0` owned by the host, the session history `h` leads
to `m`. -/
inductive Hist (cfg : Cfg W V P) (c0 : Ctx W V P) : List (Label W V P) → Mode W V P → Prop where
  | start : Hist cfg c0 [] (.waiting c0)
  | feedRet {h c i o c'} : Hist cfg c0 h (.waiting c) → enter (applyInput cfg c i) = .ret o c' →
      Hist cfg c0 (h ++ [.input i, .output o]) (.waiting c')
  | feedGo {h c i c'} : Hist cfg c0 h (.waiting c) → enter (applyInput cfg c i) = .cont c' →
      Hist cfg c0 (h ++ [.input i]) (.running c')
  | pass {h c c'} : Hist cfg c0 h (.running c) → step cfg c = .cont c' →
      Hist cfg c0 (h ++ [.pass c]) (.running c')
  | passRet {h c o c'} : Hist cfg c0 h (.running c) → step cfg c = .ret o c' →
      Hist cfg c0 (h ++ [.pass c, .output o]) (.waiting c')

/-- The values returned by `run`, in order. -/
def outputs (h : List (Label W V P)) : List (Out P) :=
  h.filterMap fun | .output o => some o | _ => none

/-- The events returned by `run`, in order. -/
def events (h : List (Label W V P)) : List (Event P) :=
  h.filterMap fun | .output (.event e) => some e | _ => none

/-- The states in which the interpreter made a pass, in order. -/
def passes (h : List (Label W V P)) : List (Ctx W V P) :=
  h.filterMap fun | .pass c => some c | _ => none

@[simp] theorem outputs_append (a b : List (Label W V P)) :
    outputs (a ++ b) = outputs a ++ outputs b := by simp [outputs]
@[simp] theorem events_append (a b : List (Label W V P)) :
    events (a ++ b) = events a ++ events b := by simp [events]
@[simp] theorem passes_append (a b : List (Label W V P)) :
    passes (a ++ b) = passes a ++ passes b := by simp [passes]
@[simp] theorem outputs_nil : outputs ([] : List (Label W V P)) = [] := rfl
@[simp] theorem events_nil : events ([] : List (Label W V P)) = [] := rfl
@[simp] theorem passes_nil : passes ([] : List (Label W V P)) = [] := rfl

/-! ## The loop always returns -/

@[simp] theorem build_stack (cfg : Cfg W V P) (c : Ctx W V P) :
    (buildMessageId cfg c).2.stack = c.stack := by unfold buildMessageId; split <;> rfl
@[simp] theorem build_numInstr (cfg : Cfg W V P) (c : Ctx W V P) :
    (buildMessageId cfg c).2.numInstr = c.numInstr := by unfold buildMessageId; split <;> rfl
@[simp] theorem build_pos (cfg : Cfg W V P) (c : Ctx W V P) :
    (buildMessageId cfg c).2.pos = c.pos := by unfold buildMessageId; split <;> rfl
@[simp] theorem build_cache (cfg : Cfg W V P) (c : Ctx W V P) :
    (buildMessageId cfg c).2.cache = c.cache := by unfold buildMessageId; split <;> rfl
@[simp] theorem build_final (cfg : Cfg W V P) (c : Ctx W V P) :
    (buildMessageId cfg c).2.final = c.final := by unfold buildMessageId; split <;> rfl
@[simp] theorem build_queue (cfg : Cfg W V P) (c : Ctx W V P) :
    (buildMessageId cfg c).2.queue = c.queue := by unfold buildMessageId; split <;> rfl
@[simp] theorem build_locals (cfg : Cfg W V P) (c : Ctx W V P) :
    (buildMessageId cfg c).2.locals = c.locals := by unfold buildMessageId; split <;> rfl
@[simp] theorem build_matchv (cfg : Cfg W V P) (c : Ctx W V P) :
    (buildMessageId cfg c).2.matchv = c.matchv := by unfold buildMessageId; split <;> rfl
@[simp] theorem build_world (cfg : Cfg W V P) (c : Ctx W V P) :
    (buildMessageId cfg c).2.world = c.world := by unfold buildMessageId; split <;> rfl
@[simp] theorem build_numRedirects (cfg : Cfg W V P) (c : Ctx W V P) :
    (buildMessageId cfg c).2.numRedirects = c.numRedirects := by
  unfold buildMessageId; split <;> rfl
@[simp] theorem build_numOut (cfg : Cfg W V P) (c : Ctx W V P) :
    (buildMessageId cfg c).2.numOut = c.numOut := by unfold buildMessageId; split <;> rfl
@[simp] theorem build_testResult (cfg : Cfg W V P) (c : Ctx W V P) :
    (buildMessageId cfg c).2.testResult = c.testResult := by unfold buildMessageId; split <;> rfl

/-- What an action leaves alone: everything that belongs to control flow and to variables. -/
structure SameCtl (c c' : Ctx W V P) : Prop where
  stack : c'.stack = c.stack
  cache : c'.cache = c.cache
  pos : c'.pos = c.pos
  numInstr : c'.numInstr = c.numInstr
  testResult : c'.testResult = c.testResult

theorem SameCtl.refl (c : Ctx W V P) : SameCtl c c := ⟨rfl, rfl, rfl, rfl, rfl⟩

theorem sameCtl_build (cfg : Cfg W V P) (c : Ctx W V P) : SameCtl c (buildMessageId cfg c).2 :=
  ⟨by simp, by simp, by simp, by simp, by simp⟩

theorem sameCtl_fileInto (cfg : Cfg W V P) (c : Ctx W V P) (copy dest flags) :
    SameCtl c (execFileInto cfg c copy dest flags) := by
  constructor <;> simp [execFileInto]

theorem sameCtl_redirect (cfg : Cfg W V P) (c : Ctx W V P) (l copy addr) :
    SameCtl c (execRedirect cfg c l copy addr) := by
  unfold execRedirect
  split
  · exact SameCtl.refl c
  · split
    · split
      · exact SameCtl.refl c
      · constructor <;> simp
    · exact SameCtl.refl c

theorem sameCtl_vacation (c : Ctx W V P) (f fcc) : SameCtl c (execVacation c f fcc) := by
  constructor <;> simp [execVacation]

theorem sameCtl_notify (cfg : Cfg W V P) (c : Ctx W V P) (f fcc) :
    SameCtl c (execNotify cfg c f fcc) := by
  unfold execNotify
  split
  · exact SameCtl.refl c
  · split
    · exact SameCtl.refl c
    · constructor <;> rfl
    · split <;> constructor <;> rfl

theorem sameCtl_setTarget (c : Ctx W V P) (t v) : SameCtl c (setTarget c t v) := by
  cases t <;> constructor <;> rfl

theorem sameCtl_popParts : ∀ (n : Nat) (c : Ctx W V P), SameCtl c (popParts n c)
  | 0, c => SameCtl.refl c
  | n + 1, c => by
    unfold popParts
    split
    · exact SameCtl.refl c
    · have h := sameCtl_popParts n { c with part := ‹Nat›, partIter := ‹List Nat›, partStack := ‹_› }
      exact ⟨h.1, h.2, h.3, h.4, h.5⟩

theorem drain_cont {c c' : Ctx W V P} (h : drain c = .cont c') : c' = c ∧ c.queue = [] := by
  unfold drain at h
  split at h
  · rename_i hq
    exact ⟨(Step.cont.inj h).symm, hq⟩
  · exact absurd h (by simp)

theorem drain_ret {c c' : Ctx W V P} {o} (h : drain c = .ret o c') :
    ∃ e q, c.queue = e :: q ∧ o = .event e ∧ c' = { c with queue := q } := by
  unfold drain at h
  split at h
  · exact absurd h (by simp)
  · rename_i e q hq
    injection h with h1 h2
    exact ⟨e, q, hq, h1.symm, h2.symm⟩

theorem finish_not_cont (cfg : Cfg W V P) (c c' : Ctx W V P) : finish cfg c ≠ .cont c' := by
  unfold finish
  split <;> simp

/-- A pass that does not return either executes an instruction and stays in the script, or pushes
one script, or leaves the current script. -/
theorem exec_cont {cfg : Cfg W V P} {c c' : Ctx W V P} {i} (h : exec cfg c i = .cont c') :
    (c'.stack = c.stack ∧ c'.numInstr = c.numInstr ∧ c'.cache = c.cache)
    ∨ (∃ s, c' = pushScript cfg c s)
    ∨ (∃ fr rest, c.stack = fr :: rest ∧ rest ≠ [] ∧
        c' = { c with stack := rest, pos := fr.prevPos, locals := fr.prevLocals,
                      matchv := fr.prevMatch }) := by
  have ofSame : ∀ d : Ctx W V P, SameCtl c d → drain d = .cont c' →
      (c'.stack = c.stack ∧ c'.numInstr = c.numInstr ∧ c'.cache = c.cache) := by
    intro d hd hdr
    obtain ⟨rfl, _⟩ := drain_cont hdr
    exact ⟨hd.1, hd.4, hd.2⟩
  cases i with
  | jz t => simp only [exec, Step.cont.injEq] at h; subst h; left; split <;> simp
  | jnz t => simp only [exec, Step.cont.injEq] at h; subst h; left; split <;> simp
  | jmp t => simp only [exec, Step.cont.injEq] at h; subst h; left; simp
  | test f =>
    simp only [exec] at h
    split at h
    · simp only [Step.cont.injEq] at h; subst h; left; simp
    · simp at h
    · simp at h
  | eval f =>
    simp only [exec] at h
    split at h
    · simp only [Step.cont.injEq] at h; subst h; left; simp
    · simp at h
  | clear a b m => simp only [exec, Step.cont.injEq] at h; subst h; left; simp [execClear]
  | keep fl =>
    simp only [exec] at h
    split at h
    · simp only [Step.cont.injEq] at h; subst h; left; simp
    · simp at h
  | fileInto a b f => left; exact ofSame _ (sameCtl_fileInto ..) h
  | redirect a b f => left; exact ofSame _ (sameCtl_redirect ..) h
  | discard => simp only [exec, Step.cont.injEq] at h; subst h; left; simp
  | stop => exact absurd h (finish_not_cont _ _ _)
  | reject f => simp [exec] at h
  | forEveryPart t =>
    simp only [exec] at h
    split at h
    · simp only [Step.cont.injEq] at h; subst h; left; simp
    · split at h
      · simp only [Step.cont.injEq] at h; subst h; left; simp
      · simp only [Step.cont.injEq] at h; subst h; left; simp
  | forEveryPartPush => simp only [exec, Step.cont.injEq] at h; subst h; left; simp
  | forEveryPartPop n =>
    simp only [exec, Step.cont.injEq] at h; subst h; left
    have := sameCtl_popParts n c
    exact ⟨this.1, this.4, this.2⟩
  | «while» f t =>
    simp only [exec] at h
    split at h
    · simp only [Step.cont.injEq] at h; subst h; left; split <;> simp
    · simp at h
  | let_ t f =>
    simp only [exec] at h
    split at h
    · rename_i v w _
      simp only [Step.cont.injEq] at h; subst h; left
      have := sameCtl_setTarget { c with world := w } t v
      exact ⟨this.1, this.4, this.2⟩
    · simp at h
  | edit f => simp only [exec, Step.cont.injEq] at h; subst h; left; simp
  | assign t f => left; exact ofSame _ (sameCtl_setTarget ..) h
  | editFlags t f =>
    simp only [exec, Step.cont.injEq] at h; subst h; left
    have := sameCtl_setTarget c t (f c.view)
    exact ⟨this.1, this.4, this.2⟩
  | notify f g => left; exact ofSame _ (sameCtl_notify ..) h
  | vacation f g => left; exact ofSame _ (sameCtl_vacation ..) h
  | «include» o p n =>
    simp only [exec] at h
    split at h
    · simp only [Step.cont.injEq] at h; subst h; right; left; exact ⟨_, rfl⟩
    · simp at h
    · simp at h
    · simp only [Step.cont.injEq] at h; subst h; left; simp
  | return_ =>
    simp only [exec, leave] at h
    split at h
    · exact absurd h (finish_not_cont _ _ _)
    · rename_i fr rest hs
      split at h
      · exact absurd h (finish_not_cont _ _ _)
      · rename_i hr
        simp only [Step.cont.injEq] at h
        right; right
        exact ⟨fr, rest, hs, by simpa using hr, h.symm⟩
  | require caps =>
    simp only [exec] at h
    split at h
    · simp only [Step.cont.injEq] at h; subst h; left; simp
    · simp at h
  | error f => simp [exec] at h
  | invalid p => simp [exec] at h

theorem step_decreases {cfg : Cfg W V P} {c c' : Ctx W V P} (h : step cfg c = .cont c') :
    fuel cfg c' < fuel cfg c := by
  unfold step at h
  split at h
  · simp at h
  · rename_i fr rest hs
    split at h
    · split at h
      · simp at h
      · unfold leave at h
        rw [hs] at h
        simp only at h
        split at h
        · exact absurd h (finish_not_cont _ _ _)
        · simp only [Step.cont.injEq] at h
          subst h
          simp only [fuel, hs, List.length_cons]
          omega
    · split at h
      · simp at h
      · rename_i hlim
        rcases exec_cont h with ⟨h1, h2, _⟩ | ⟨s, rfl⟩ | ⟨fr', rest', h1, _, rfl⟩
        · simp only at h1 h2
          simp only [fuel, h1, h2]
          omega
        · simp only [fuel, pushScript, List.length_cons]
          omega
        · simp only at h1
          simp only [fuel, h1, List.length_cons]
          omega

theorem loop_total (cfg : Cfg W V P) : ∀ (n : Nat) (c : Ctx W V P), fuel cfg c ≤ n →
    ∃ o c', loop cfg n c = some (o, c')
  | 0, c, h => by simp [fuel] at h
  | n + 1, c, h => by
    unfold loop
    split
    · exact ⟨_, _, rfl⟩
    · rename_i c' hc
      exact loop_total cfg n c' (by have := step_decreases hc; omega)

/-- The histories are exactly what calls of `run` produce: (1) every call of `run` extends the
history. -/
theorem loop_hist {cfg : Cfg W V P} {c0 : Ctx W V P} :
    ∀ (n : Nat) {h c o c'}, Hist cfg c0 h (.running c) → loop cfg n c = some (o, c') →
      ∃ l : List (Ctx W V P), Hist cfg c0 (h ++ (l.map Label.pass ++ [.output o])) (.waiting c')
  | 0, h, c, o, c', _, hl => by simp [loop] at hl
  | n + 1, h, c, o, c', hh, hl => by
    unfold loop at hl
    split at hl
    · rename_i o1 c1 hs
      simp only [Option.some.injEq, Prod.mk.injEq] at hl
      obtain ⟨rfl, rfl⟩ := hl
      exact ⟨[c], Hist.passRet hh hs⟩
    · rename_i c1 hs
      obtain ⟨l, hl'⟩ := loop_hist n (Hist.pass hh hs) hl
      exact ⟨c :: l, by simpa using hl'⟩


/-! ## Passes that return to the host -/

/-- `settle` keeps control state, takes the final event and adds nothing to the queue. -/
theorem settle_spec (cfg : Cfg W V P) (c : Ctx W V P) :
    SameCtl c (settle cfg c).2 ∧ (settle cfg c).2.final = none
      ∧ (settle cfg c).2.queue = c.queue
      ∧ (settle cfg c).2.numRedirects = c.numRedirects ∧ (settle cfg c).2.numOut = c.numOut
      ∧ (settle cfg c).2.world = c.world := by
  unfold settle
  split
  · rename_i flags id hf
    simp only
    split <;> refine ⟨⟨?_, ?_, ?_, ?_, ?_⟩, ?_, ?_, ?_, ?_, ?_⟩ <;> simp
  · refine ⟨⟨rfl, rfl, rfl, rfl, rfl⟩, rfl, rfl, rfl, rfl, rfl⟩
  · rename_i hf
    exact ⟨SameCtl.refl c, hf, rfl, rfl, rfl, rfl⟩

theorem finish_ret {cfg : Cfg W V P} {c c' : Ctx W V P} {o} (h : finish cfg c = .ret o c') :
    SameCtl c c' ∧ c'.final = none := by
  obtain ⟨hs, hf, _⟩ := settle_spec cfg c
  unfold finish at h
  split at h
  · rename_i c1 he
    injection h with h1 h2; subst h2
    rw [he] at hs hf; exact ⟨hs, hf⟩
  · rename_i e c1 he
    injection h with h1 h2; subst h2
    rw [he] at hs hf; exact ⟨hs, hf⟩
  · rename_i e es c1 _ he
    injection h with h1 h2; subst h2
    rw [he] at hs hf; exact ⟨⟨hs.1, hs.2, hs.3, hs.4, hs.5⟩, hf⟩

theorem finishLoop_spec (cfg : Cfg W V P) (c : Ctx W V P) :
    (finishLoop cfg c).stack = [] ∧ (finishLoop cfg c).final = none
      ∧ (finishLoop cfg c).numInstr = c.numInstr ∧ (finishLoop cfg c).cache = c.cache
      ∧ (finishLoop cfg c).numRedirects = c.numRedirects
      ∧ (finishLoop cfg c).numOut = c.numOut := by
  obtain ⟨hs, hf, hq, hr, ho, hw⟩ := settle_spec cfg { c with stack := [] }
  unfold finishLoop
  split
  · rename_i c1 he
    rw [he] at hs hf hr ho; exact ⟨hs.1, hf, hs.4, hs.2, hr, ho⟩
  · rename_i e c1 _ he
    rw [he] at hs hf hr ho; exact ⟨hs.1, hf, hs.4, hs.2, hr, ho⟩

theorem leave_ret {cfg : Cfg W V P} {c c' : Ctx W V P} {o} (h : leave cfg c = .ret o c') :
    c'.stack = [] ∧ c'.final = none ∧ c'.numInstr = c.numInstr ∧ c'.cache = c.cache := by
  unfold leave at h
  split at h
  · rename_i hs
    obtain ⟨h1, h2⟩ := finish_ret h
    exact ⟨by rw [h1.1, hs], h2, h1.4, h1.2⟩
  · rename_i fr rest hs
    simp only at h
    split at h
    · rename_i hr
      obtain ⟨h1, h2⟩ := finish_ret h
      exact ⟨by rw [h1.1]; simpa using hr, h2, h1.4, h1.2⟩
    · simp at h

/-- A pass that returns to the host either keeps the script stack or empties it; in the latter case
the final event has been taken. -/
theorem exec_ret {cfg : Cfg W V P} {c c' : Ctx W V P} {i o} (h : exec cfg c i = .ret o c') :
    c'.numInstr = c.numInstr ∧ c'.cache = c.cache
      ∧ (c'.stack = c.stack ∨ (c'.stack = [] ∧ c'.final = none)) := by
  have ofSame : ∀ d : Ctx W V P, SameCtl c d → drain d = .ret o c' →
      c'.numInstr = c.numInstr ∧ c'.cache = c.cache
        ∧ (c'.stack = c.stack ∨ (c'.stack = [] ∧ c'.final = none)) := by
    intro d hd hdr
    obtain ⟨e, q, _, _, rfl⟩ := drain_ret hdr
    exact ⟨hd.4, hd.2, Or.inl hd.1⟩
  have ofLoop : ∀ d : Ctx W V P, d.numInstr = c.numInstr → d.cache = c.cache →
      finishLoop cfg d = c' → c'.numInstr = c.numInstr ∧ c'.cache = c.cache
        ∧ (c'.stack = c.stack ∨ (c'.stack = [] ∧ c'.final = none)) := by
    rintro d h1 h2 rfl
    obtain ⟨a, b, c1, d1, _⟩ := finishLoop_spec cfg d
    exact ⟨by rw [c1, h1], by rw [d1, h2], Or.inr ⟨a, b⟩⟩
  cases i with
  | jz t => simp [exec] at h
  | jnz t => simp [exec] at h
  | jmp t => simp [exec] at h
  | test f =>
    simp only [exec] at h
    split at h
    · simp at h
    · injection h with _ h; subst h; exact ⟨rfl, rfl, Or.inl rfl⟩
    · injection h with _ h; refine ofLoop _ ?_ ?_ h <;> rfl
  | eval f =>
    simp only [exec] at h
    split at h
    · simp at h
    · injection h with _ h; subst h; exact ⟨rfl, rfl, Or.inl rfl⟩
  | clear a b m => simp [exec] at h
  | keep fl =>
    simp only [exec] at h
    split at h
    · simp at h
    · injection h with _ h; subst h; simp
  | fileInto a b f => exact ofSame _ (sameCtl_fileInto ..) h
  | redirect a b f => exact ofSame _ (sameCtl_redirect ..) h
  | discard => simp [exec] at h
  | stop =>
    obtain ⟨h1, h2⟩ := finish_ret h
    exact ⟨h1.4, h1.2, Or.inr ⟨h1.1, h2⟩⟩
  | reject f => simp only [exec] at h; injection h with _ h; subst h; exact ⟨rfl, rfl, Or.inl rfl⟩
  | forEveryPart t =>
    simp only [exec] at h
    split at h
    · simp at h
    · split at h <;> simp at h
  | forEveryPartPush => simp [exec] at h
  | forEveryPartPop n => simp [exec] at h
  | «while» f t =>
    simp only [exec] at h
    split at h
    · simp at h
    · injection h with _ h; subst h; exact ⟨rfl, rfl, Or.inl rfl⟩
  | let_ t f =>
    simp only [exec] at h
    split at h
    · simp at h
    · injection h with _ h; subst h; exact ⟨rfl, rfl, Or.inl rfl⟩
  | edit f => simp [exec] at h
  | assign t f => exact ofSame _ (sameCtl_setTarget ..) h
  | editFlags t f => simp [exec] at h
  | notify f g => exact ofSame _ (sameCtl_notify ..) h
  | vacation f g => exact ofSame _ (sameCtl_vacation ..) h
  | «include» a b n =>
    simp only [exec] at h
    split at h
    · simp at h
    · injection h with _ h; subst h; exact ⟨rfl, rfl, Or.inl rfl⟩
    · injection h with _ h; exact ofLoop _ rfl rfl h
    · simp at h
  | return_ =>
    obtain ⟨h1, h2, h3, h4⟩ := leave_ret h
    exact ⟨h3, h4, Or.inr ⟨h1, h2⟩⟩
  | require caps =>
    simp only [exec] at h
    split at h
    · simp at h
    · injection h with _ h; exact ofLoop _ rfl rfl h
  | error f => simp only [exec] at h; injection h with _ h; exact ofLoop _ rfl rfl h
  | invalid p => simp only [exec] at h; injection h with _ h; exact ofLoop _ rfl rfl h

/-- After an error is reported no script is left. -/
theorem exec_error {cfg : Cfg W V P} {c c' : Ctx W V P} {i er}
    (h : exec cfg c i = .ret (.error er) c') : c'.stack = [] := by
  have noDrain : ∀ d : Ctx W V P, drain d = .ret (.error er) c' → c'.stack = [] := by
    intro d hd
    obtain ⟨e, q, _, h, _⟩ := drain_ret hd
    simp at h
  have ofLoop : ∀ d : Ctx W V P, finishLoop cfg d = c' → c'.stack = [] := by
    rintro d rfl; exact (finishLoop_spec cfg d).1
  have noFin : ∀ d : Ctx W V P, finish cfg d = .ret (.error er) c' → c'.stack = [] := by
    intro d hd
    unfold finish at hd
    split at hd <;> (injection hd with h1 h2; simp at h1)
  cases i with
  | jz t => simp [exec] at h
  | jnz t => simp [exec] at h
  | jmp t => simp [exec] at h
  | test f =>
    simp only [exec] at h
    split at h
    · simp at h
    · simp at h
    · injection h with _ h; exact ofLoop _ h
  | eval f => simp only [exec] at h; split at h <;> simp at h
  | clear a b m => simp [exec] at h
  | keep fl => simp only [exec] at h; split at h <;> simp at h
  | fileInto a b f => exact noDrain _ h
  | redirect a b f => exact noDrain _ h
  | discard => simp [exec] at h
  | stop => exact noFin _ h
  | reject f => simp [exec] at h
  | forEveryPart t =>
    simp only [exec] at h
    split at h
    · simp at h
    · split at h <;> simp at h
  | forEveryPartPush => simp [exec] at h
  | forEveryPartPop n => simp [exec] at h
  | «while» f t => simp only [exec] at h; split at h <;> simp at h
  | let_ t f => simp only [exec] at h; split at h <;> simp at h
  | edit f => simp [exec] at h
  | assign t f => exact noDrain _ h
  | editFlags t f => simp [exec] at h
  | notify f g => exact noDrain _ h
  | vacation f g => exact noDrain (execVacation c f g) h
  | «include» a b n =>
    simp only [exec] at h
    split at h
    · simp at h
    · simp at h
    · injection h with _ h; exact ofLoop _ h
    · simp at h
  | return_ =>
    simp only [exec, leave] at h
    split at h
    · exact noFin _ h
    · split at h
      · exact noFin _ h
      · simp at h
  | require caps =>
    simp only [exec] at h
    split at h
    · simp at h
    · injection h with _ h; exact ofLoop _ h
  | error f => simp only [exec] at h; injection h with _ h; exact ofLoop _ h
  | invalid p => simp only [exec] at h; injection h with _ h; exact ofLoop _ h

theorem stack_of_fetch {c : Ctx W V P} {i} (h : fetch c = some i) :
    ∃ fr rest, c.stack = fr :: rest := by
  cases hs : c.stack with
  | nil => simp [fetch, hs] at h
  | cons a b => exact ⟨a, b, rfl⟩

/-- The three ways a pass can go when a script is active. -/
theorem step_cases {cfg : Cfg W V P} {c : Ctx W V P} {fr rest} (hs : c.stack = fr :: rest) :
    (c.pos < fr.script.instrs.length ∧ ∃ i, fr.script.instrs[c.pos]? = some i ∧ fetch c = some i ∧
      ((cfg.cpuLimit ≤ c.numInstr ∧ step cfg c =
          .ret (.error .cpuLimit) (finishLoop cfg { c with numInstr := c.numInstr + 1 }))
      ∨ (c.numInstr < cfg.cpuLimit ∧ step cfg c =
          exec cfg { c with numInstr := c.numInstr + 1, pos := c.pos + 1 } i)))
    ∨ (fetch c = none ∧ c.pos = fr.script.instrs.length ∧ step cfg c = leave cfg c)
    ∨ (fetch c = none ∧ fr.script.instrs.length < c.pos ∧ step cfg c = .ret .none c) := by
  unfold step fetch
  rw [hs]
  simp only
  cases hi : fr.script.instrs[c.pos]? with
  | none =>
    right
    simp only [List.getElem?_eq_none_iff] at hi
    by_cases hl : fr.script.instrs.length < c.pos
    · right; simp [hl]
    · left; simp [hl]; omega
  | some i =>
    left
    have hlt : c.pos < fr.script.instrs.length := by
      by_contra hc
      have := List.getElem?_eq_none (l := fr.script.instrs) (i := c.pos) (by omega)
      rw [this] at hi; simp at hi
    refine ⟨hlt, i, rfl, rfl, ?_⟩
    by_cases hl : cfg.cpuLimit < c.numInstr + 1
    · left; exact ⟨by omega, by simp [hl]⟩
    · right; exact ⟨by omega, by simp [hl]⟩

theorem step_error {cfg : Cfg W V P} {c c' : Ctx W V P} {er}
    (h : step cfg c = .ret (.error er) c') : c'.stack = [] := by
  cases hs : c.stack with
  | nil => simp [step, hs] at h
  | cons fr rest =>
    rcases step_cases (cfg := cfg) hs with ⟨_, i, hi, hfe, ⟨hl', e⟩ | ⟨hl', e⟩⟩ | ⟨_, _, e⟩ | ⟨_, _, e⟩
    · rw [e] at h
      injection h with _ h
      subst h
      exact (finishLoop_spec ..).1
    · rw [e] at h
      exact exec_error h
    · rw [e] at h
      exact (leave_ret h).1
    · rw [e] at h; simp at h

/-- `enter` never reports an error. -/
theorem enter_ret {c c' : Ctx W V P} {o} (h : enter c = .ret o c') :
    (∃ e q, c.queue = e :: q ∧ o = .event e ∧ c' = { c with queue := q })
    ∨ (c.queue = [] ∧ c.stack = [] ∧ o = .none ∧ c' = c) := by
  unfold enter at h
  split at h
  · rename_i e q hq
    injection h with h1 h2
    exact Or.inl ⟨e, q, hq, h1.symm, h2.symm⟩
  · rename_i hq
    split at h
    · rename_i hs
      injection h with h1 h2
      exact Or.inr ⟨hq, by simpa using hs, h1.symm, h2.symm⟩
    · simp at h

theorem enter_cont {c c' : Ctx W V P} (h : enter c = .cont c') : c' = c ∧ c.queue = [] ∧ c.stack ≠ [] := by
  unfold enter at h
  split at h
  · simp at h
  · rename_i hq
    split at h
    · simp at h
    · rename_i hs
      exact ⟨(Step.cont.inj h).symm, hq, by simpa using hs⟩

end Sieve.Vm
