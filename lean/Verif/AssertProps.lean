import Verif.CompileDepth
import Verif.SourceExamples

/-!
# C101: the assertions of the interpreter hold

`Context::run` asserts at every jump that it leads forward (or, for `Jmp`, not to itself), at
`ForEveryPartPop(n)` that `n` is positive and that as many loops over message parts are active, and
panics (in tests) if `ForEveryPart` runs out of parts without an active loop
(`src/runtime/context.rs:136`, `144`, `151`, `238`, `247`, `258`, `276`).
Whatever the compiler accepts is covered, whether or not it follows the grammar, and so is
`continue` inside `foreverypart`.  The host is free to do what it likes.
-/

namespace Sieve.Assert

open Sieve.Vm Sieve.Compile Sieve.Source

variable {W V P A T E : Type} {cfg : Cfg W V P} {lim : Limits} {I : Interp cfg A T E}

/-- What the code asserts before executing an instruction. -/
def Holds (cfg : Cfg W V P) (c : Ctx W V P) : Instr W V P → Prop
  | .jz t => c.testResult = false → c.pos < t
  | .jnz t => c.testResult = true → c.pos < t
  | .jmp t => t ≠ c.pos
  | .forEveryPart t => c.partIter = [] → c.partStack ≠ [] ∧ c.pos < t
  | .forEveryPartPop n => 0 < n ∧ n ≤ c.partStack.length
  | .while f t => ∀ v w, f c.view = .done v w → cfg.toBool v = false → c.pos < t
  | _ => True

/-- A script the compiler has made of some sequence of tokens. -/
def FromTokens (lim : Limits) (I : Interp cfg A T E) (s : Script W V P) : Prop :=
  ∃ ts ops, compile lim ts = some ops ∧ ops.length < maxPos ∧ s.instrs = ops.map I.lower

/-! ## Depths of the active scripts -/

/-- The numbers that go with a script. -/
def Fits (I : Interp cfg A T E) (s : Script W V P) (d : Nat → Nat) : Prop :=
  ∃ ops : List (Op A T E), Depths ops d ∧ (∀ o ∈ ops, ∀ t, o.target = some t → t < maxPos) ∧ d 0 = 0 ∧
    s.instrs = ops.map I.lower

theorem accepted_fits {s : Script W V P} (h : FromTokens lim I s) : ∃ d, Fits I s d := by
  obtain ⟨ts, ops, h1, h2, h3⟩ := h
  obtain ⟨d, h4, h5⟩ := compiled_depth h1
  refine ⟨d, ops, h4, ?_, h5, h3⟩
  intro o ho t ht
  have := compiled_in_range h1 o ho t ht
  omega

/-- Number of loops over parts the active scripts count on. -/
inductive Held (I : Interp cfg A T E) : Nat → List (Frame W V P) → Nat → Prop where
  | nil {p} : Held I p [] 0
  | cons {p fr st d n} : Fits I fr.script d → Held I fr.prevPos st n → Held I p (fr :: st) (d p + n)

/-- There are at least as many loops over parts. -/
def Enough (I : Interp cfg A T E) (c : Ctx W V P) : Prop := ∃ n, Held I c.pos c.stack n ∧ n ≤ c.partStack.length

theorem enough_nil {c : Ctx W V P} (h : c.stack = []) : Enough I c := ⟨0, by rw [h]; exact .nil, by omega⟩

theorem popParts_keeps : ∀ (n : Nat) (c : Ctx W V P), (popParts n c).pos = c.pos ∧ (popParts n c).stack = c.stack ∧
    (popParts n c).partStack.length = c.partStack.length - n
  | 0, c => ⟨rfl, rfl, rfl⟩
  | n + 1, c => by
    rw [popParts]
    split
    · rename_i h; simp [h]
    · rename_i q it rest h
      obtain ⟨h1, h2, h3⟩ := popParts_keeps n { c with part := q, partIter := it, partStack := rest }
      refine ⟨h1, h2, ?_⟩
      rw [h3, h]
      simp

theorem leave_enough {c : Ctx W V P} (h : Enough I c) :
    (∀ c', leave cfg c = .cont c' → Enough I c') ∧ ∀ o c', leave cfg c = .ret o c' → Enough I c' := by
  obtain ⟨n, hh, hn⟩ := h
  unfold leave
  cases hs : c.stack with
  | nil =>
    refine ⟨fun c' e => absurd e (finish_not_cont _ _ _), fun o c' e => enough_nil ?_⟩
    rw [(finish_ret e).1.1, hs]
  | cons fr rest =>
    rw [hs] at hh
    cases hh with
    | @cons _ _ _ d m hf hb =>
      simp only
      split
      · rename_i he
        refine ⟨fun c' e => absurd e (finish_not_cont _ _ _), fun o c' e => enough_nil ?_⟩
        rw [(finish_ret e).1.1]
        simpa using he
      · refine ⟨fun c' e => ?_, fun o c' e => by cases e⟩
        cases e
        exact ⟨m, hb, by simp only; omega⟩

/-- The state after a step. -/
def after : Step W V P → Ctx W V P
  | .cont c => c
  | .ret _ c => c

/-- An action, a test or an expression. -/
theorem quiet_enough {c : Ctx W V P} {o : Op A T E} {fr st d n} (hs : c.stack = fr :: st) (hfits : Fits I fr.script d)
    (hreg : ∀ n s, cfg.registered n = some s → ∃ d, Fits I s d) (hcache : ∀ x ∈ c.cache, ∃ d, Fits I x.2 d)
    (hb : Held I fr.prevPos st n) (hn : d c.pos + n ≤ c.partStack.length) (h0 : 0 < c.pos) (hn' : d (c.pos - 1) + n ≤ c.partStack.length)
    (ho : (∃ a, o = .plain a) ∨ ∃ a neg, o = Atom.op neg a) : Enough I (after (exec cfg c (I.lower o))) := by
  have e : c = move ⟨c.pos, c.numInstr, c.testResult, c.stack⟩ c := rfl
  have here : ∀ {c' : Ctx W V P} {r : Place W V P}, r.stack = c.stack → c'.partStack = c.partStack →
      (r.pos = c.pos ∨ r.pos = c.pos - 1) → Enough I (move r c') := by
    intro c' r hst hp hr
    refine ⟨d r.pos + n, ?_, ?_⟩
    · show Held I r.pos r.stack _
      rw [hst, hs]
      exact .cons hfits hb
    · show _ ≤ c'.partStack.length
      rw [hp]
      rcases hr with hr | hr <;> rw [hr] <;> assumption
  rcases ho with ⟨a, rfl⟩ | ⟨a, neg, rfl⟩
  · have ht := exec_twin (cfg := cfg) c ⟨c.pos, c.numInstr, c.testResult, c.stack⟩ (I.act a) (I.plain a) rfl
    rw [← e] at ht
    simp only [Interp.lower]
    have hsame : ∀ {x y}, Twin cfg ⟨c.pos, c.numInstr, c.testResult, c.stack⟩ c (suspends (I.act a) c.view) x y →
        Enough I (after y) := by
      intro x y ht
      cases ht with
      | cont _ h => exact here rfl h.parts (.inl rfl)
      | ret _ h => exact here rfl h.parts (.inl rfl)
      | again _ h => exact here rfl h.parts (.inr rfl)
      | over h => exact enough_nil rfl
      | push s _ h =>
        have hd : ∃ d, Fits I s d := by
          obtain ⟨k, h | h⟩ := h
          · unfold lookup at h
            simp only [Option.map_eq_some_iff] at h
            obtain ⟨x, hx, rfl⟩ := h
            exact hcache x (List.mem_of_find?_eq_some hx)
          · exact hreg _ _ h
        obtain ⟨d', hd⟩ := hd
        refine ⟨d' 0 + (d c.pos + n), ?_, ?_⟩
        · show Held I 0 (⟨s, c.pos, c.locals, c.matchv⟩ :: c.stack) _
          rw [hs]
          exact .cons hd (.cons hfits hb)
        · obtain ⟨_, _, _, h0', _⟩ := hd
          rw [h0']
          show _ ≤ c.partStack.length
          omega
    exact hsame ht
  · have ht := atom_twin I c ⟨c.pos, c.numInstr, c.testResult, c.stack⟩ a neg
    rw [← e] at ht
    generalize exec cfg c (I.atom a) = x at ht
    generalize exec cfg c (I.lower (a.op neg)) = y at ht
    cases ht with
    | cont _ h => exact here rfl h.parts (.inl rfl)
    | ret _ h => exact here rfl h.parts (.inl rfl)
    | again _ h => exact here rfl h.parts (.inr rfl)
    | over h => exact enough_nil rfl

/-- What is known of the instruction about to be executed. -/
theorem fetched {c : Ctx W V P} {i} (h : Enough I c) (hi : fetch c = some i) :
    ∃ fr st d n o, c.stack = fr :: st ∧ Fits I fr.script d ∧ Held I fr.prevPos st n ∧ d c.pos + n ≤ c.partStack.length ∧
      i = I.lower o ∧ o.Falls d c.pos ∧ ∀ t, o.target = some t → d t + o.taken ≤ d c.pos := by
  unfold fetch at hi
  split at hi
  · cases hi
  · rename_i fr st hs
    obtain ⟨k, hh, hk⟩ := h
    rw [hs] at hh
    cases hh with
    | @cons _ _ _ d n hf hb =>
      have hf' := hf
      obtain ⟨ops, h1, h2, h3, h4⟩ := hf'
      rw [h4, List.getElem?_map, Option.map_eq_some_iff] at hi
      obtain ⟨o, ho, rfl⟩ := hi
      refine ⟨fr, st, d, n, o, hs, hf, hb, hk, rfl, h1.falls _ _ ho, ?_⟩
      intro t ht
      rcases h1.jumps _ _ _ ho ht with h5 | h5
      · have := h2 o (List.mem_of_getElem? ho) t ht
        omega
      · exact h5.2

theorem step_enough {c : Ctx W V P} (hreg : ∀ n s, cfg.registered n = some s → ∃ d, Fits I s d)
    (hcache : ∀ x ∈ c.cache, ∃ d, Fits I x.2 d) (h : Enough I c) : Enough I (after (step cfg c)) := by
  have key : ∀ i, fetch c = some i →
      Enough I (after (exec cfg { c with numInstr := c.numInstr + 1, pos := c.pos + 1 } i)) := by
    intro i hfetch
    obtain ⟨fr', st', d, n, o, h1, h2, h3, h4, rfl, h5, h6⟩ := fetched h hfetch
    generalize hc : ({ c with numInstr := c.numInstr + 1, pos := c.pos + 1 } : Ctx W V P) = c1
    have hpos : c1.pos = c.pos + 1 := by rw [← hc]
    have hst : c1.stack = fr' :: st' := by rw [← hc]; exact h1
    have hps : c1.partStack = c.partStack := by rw [← hc]
    have hca : ∀ x ∈ c1.cache, ∃ d, Fits I x.2 d := by rw [← hc]; exact hcache
    have at_ : ∀ {c' : Ctx W V P}, c'.stack = c1.stack → d c'.pos + n ≤ c'.partStack.length → Enough I c' := by
      intro c' h7 h8
      exact ⟨_, by rw [h7, hst]; exact .cons h2 h3, h8⟩
    have quiet : ∀ o : Op A T E, d (c.pos + 1) ≤ d c.pos → ((∃ a, o = .plain a) ∨ ∃ a neg, o = Atom.op neg a) →
        Enough I (after (exec cfg c1 (I.lower o))) := by
      intro o h7 h8
      refine quiet_enough hst h2 hreg hca h3 ?_ (by omega) ?_ h8
      · rw [hpos, hps]; omega
      · rw [hpos, hps]; exact h4
    cases o with
    | plain a => exact quiet _ h5 (.inl ⟨a, rfl⟩)
    | test t neg => exact quiet _ h5 (.inr ⟨.leaf t, neg, rfl⟩)
    | tru => exact quiet _ h5 (.inr ⟨.tru, false, rfl⟩)
    | fls => exact quiet _ h5 (.inr ⟨.fls, false, rfl⟩)
    | bad a => exact quiet _ h5 (.inr ⟨.bad a, false, rfl⟩)
    | eval e neg => exact quiet _ h5 (.inr ⟨.ev e, neg, rfl⟩)
    | jmp t =>
      have := h6 t rfl
      simp only [Op.taken] at this
      simp only [Interp.lower, exec]
      exact at_ rfl (by simp only [after, hps]; omega)
    | jz t =>
      have := h6 t rfl
      simp only [Op.taken, Op.Falls] at this h5
      simp only [Interp.lower, exec, after]
      split
      · exact at_ rfl (by rw [hpos, hps]; omega)
      · exact at_ rfl (by simp only [hps]; omega)
    | jnz t =>
      have := h6 t rfl
      simp only [Op.taken, Op.Falls] at this h5
      simp only [Interp.lower, exec, after]
      split
      · exact at_ rfl (by simp only [hps]; omega)
      · exact at_ rfl (by rw [hpos, hps]; omega)
    | fepPush =>
      simp only [Op.Falls] at h5
      simp only [Interp.lower, exec]
      refine at_ rfl ?_
      simp only [after, List.length_cons, hps, hpos]
      omega
    | fep t =>
      have := h6 t rfl
      simp only [Op.taken, Op.Falls] at this h5
      simp only [Interp.lower, exec]
      cases hpi : c1.partIter with
      | cons q it => exact at_ rfl (by simp only [after, hpos, hps]; omega)
      | nil =>
        simp only
        cases hpp : c1.partStack with
        | nil =>
          rw [hps] at hpp
          rw [hpp] at h4
          simp at h4
          omega
        | cons q rest =>
          refine at_ rfl ?_
          simp only [after]
          rw [hps] at hpp
          rw [hpp] at h4
          simp at h4
          omega
    | fepPop k =>
      simp only [Op.Falls] at h5
      obtain ⟨h7, h8, h9⟩ := popParts_keeps k c1
      simp only [Interp.lower, exec]
      refine at_ h8 ?_
      simp only [after]
      rw [h7, h9, hpos, hps]
      omega
    | loop e t =>
      have := h6 t rfl
      simp only [Op.taken, Op.Falls] at this h5
      simp only [Interp.lower, exec]
      split
      · split
        · exact at_ rfl (by simp only [after, hpos, hps]; omega)
        · exact at_ rfl (by simp only [after, hps]; omega)
      · exact at_ rfl (by simp only [after, hpos, hps, Nat.add_sub_cancel]; omega)
    | ret =>
      have hen : Enough I { c1 with pos := c.pos } := at_ rfl (by simp only [hps]; exact h4)
      have hle := leave_enough (cfg := cfg) hen
      have e : leave cfg { c1 with pos := c.pos } = leave cfg c1 := by
        unfold leave
        rw [hst]
      rw [e] at hle
      simp only [Interp.lower, exec]
      cases hl : leave cfg c1 with
      | cont c' => exact hle.1 c' hl
      | ret o c' => exact hle.2 o c' hl
  unfold step
  split
  · rename_i hs
    exact enough_nil hs
  · rename_i fr rest hs
    split
    · split
      · exact h
      · have := leave_enough (cfg := cfg) h
        cases hl : leave cfg c with
        | cont c' => exact this.1 c' hl
        | ret o c' => exact this.2 o c' hl
    · rename_i i hi
      split
      · exact enough_nil (finishLoop_spec ..).1
      · exact key i (by simp only [fetch, hs, hi])

theorem session_enough {w : W} {h m} (hreg : ∀ n s, cfg.registered n = some s → FromTokens lim I s)
    (hh : Hist cfg (Ctx.new w) h m) (hhost : ∀ s ∈ scriptsOf h, FromTokens lim I s) : Enough I (modeCtx m) := by
  have hreg' : ∀ n s, cfg.registered n = some s → ∃ d, Fits I s d := fun n s h => accepted_fits (hreg n s h)
  have input : ∀ {c i}, Enough I c → (∀ n s, i = .script n s → FromTokens lim I s) → Enough I (applyInput cfg c i) := by
    intro c i h hs
    cases i with
    | script n s =>
      simp only [applyInput]
      split
      · obtain ⟨d, hd⟩ := accepted_fits (hs n s rfl)
        obtain ⟨k, h1, h2⟩ := h
        refine ⟨d 0 + k, .cons hd h1, ?_⟩
        obtain ⟨_, _, _, h0, _⟩ := hd
        rw [h0]
        show _ ≤ c.partStack.length
        omega
      · exact h
    | _ => exact h
  induction hh with
  | start => exact enough_nil rfl
  | @feedRet h c i o c' hh he ih =>
    have h1 := input (i := i) (ih (fun s hs => hhost s (by rw [scriptsOf_append]; simp [hs]))) (by
      rintro n s rfl
      exact hhost s (by rw [scriptsOf_append]; simp [scriptsOf]))
    rcases enter_ret he with ⟨ev, q, _, rfl, rfl⟩ | ⟨_, _, rfl, rfl⟩
    · exact h1
    · exact h1
  | @feedGo h c i c' hh he ih =>
    have h1 := input (i := i) (ih (fun s hs => hhost s (by rw [scriptsOf_append]; simp [hs]))) (by
      rintro n s rfl
      exact hhost s (by rw [scriptsOf_append]; simp [scriptsOf]))
    obtain ⟨rfl, _⟩ := enter_cont he
    exact h1
  | @pass h c c' hh he ih =>
    have hhost' : ∀ s ∈ scriptsOf h, FromTokens lim I s := fun s hs => hhost s (by rw [scriptsOf_append]; simp [hs])
    have hall := all_scripts (Q := fun s => ∃ d, Fits I s d) hreg' hh (fun s hs => accepted_fits (hhost' s hs))
    have := step_enough hreg' hall.2 (ih hhost')
    rw [show modeCtx (Mode.running c) = c from rfl, he] at this
    exact this
  | @passRet h c o c' hh he ih =>
    have hhost' : ∀ s ∈ scriptsOf h, FromTokens lim I s := fun s hs => hhost s (by rw [scriptsOf_append]; simp [hs])
    have hall := all_scripts (Q := fun s => ∃ d, Fits I s d) hreg' hh (fun s hs => accepted_fits (hhost' s hs))
    have := step_enough hreg' hall.2 (ih hhost')
    rw [show modeCtx (Mode.running c) = c from rfl, he] at this
    exact this

/-- **C101.** In every session with scripts the compiler has accepted, whatever the host does, the
assertions about the instruction executed next hold. -/
theorem asserted {w : W} {h c i} (hreg : ∀ n s, cfg.registered n = some s → FromTokens lim I s)
    (hh : Hist cfg (Ctx.new w) h (.running c)) (hhost : ∀ s ∈ scriptsOf h, FromTokens lim I s)
    (hi : fetch c = some i) : Holds cfg c i := by
  have hen : Enough I c := session_enough hreg hh hhost
  have hall := (all_scripts hreg hh hhost).1
  obtain ⟨fr, st, d, n, o, h1, _, h3, h4, h5, h6, h7⟩ := fetched hen hi
  have fwd : ∀ {o : Op A T E} {t : Nat}, i = I.lower o → o.target = some t →
      ∃ o' : Op A T E, I.lower o' = i ∧ (o'.target = some t → o'.Asserts c.pos t) := by
    intro o t _ _
    obtain ⟨ts, ops, k1, k2, k3⟩ := hall fr (by simp only [modeCtx]; rw [h1]; simp)
    have hi' := hi
    unfold fetch at hi'
    rw [h1] at hi'
    simp only at hi'
    rw [k3, List.getElem?_map, Option.map_eq_some_iff] at hi'
    obtain ⟨o', ho', e⟩ := hi'
    exact ⟨o', e, fun ht => compiled_forward k1 k2 _ _ _ ho' ht⟩
  have noAct : ∀ a, I.act a = i → Source.Plain i := fun a e => e ▸ I.plain a
  cases o with
  | jmp t =>
    obtain ⟨o', e, hf⟩ := fwd h5 rfl
    subst h5
    cases o' <;> simp only [Interp.lower, reduceCtorEq, Instr.jmp.injEq] at e
    · exact absurd (noAct _ e) id
    · subst e; exact hf rfl
  | jz t =>
    obtain ⟨o', e, hf⟩ := fwd h5 rfl
    subst h5
    cases o' <;> simp only [Interp.lower, reduceCtorEq, Instr.jz.injEq] at e
    · exact absurd (noAct _ e) id
    · subst e; exact fun _ => hf rfl
  | jnz t =>
    obtain ⟨o', e, hf⟩ := fwd h5 rfl
    subst h5
    cases o' <;> simp only [Interp.lower, reduceCtorEq, Instr.jnz.injEq] at e
    · exact absurd (noAct _ e) id
    · subst e; exact fun _ => hf rfl
  | fep t =>
    obtain ⟨o', e, hf⟩ := fwd h5 rfl
    subst h5
    cases o' <;> simp only [Interp.lower, reduceCtorEq, Instr.forEveryPart.injEq] at e
    · exact absurd (noAct _ e) id
    · subst e
      refine fun _ => ⟨fun hp => ?_, hf rfl⟩
      rw [hp] at h4
      simp only [Op.Falls] at h6
      simp at h4
      omega
  | loop e t =>
    obtain ⟨o', e, hf⟩ := fwd h5 rfl
    subst h5
    cases o' <;> simp only [Interp.lower, reduceCtorEq, Instr.while.injEq] at e
    · exact absurd (noAct _ e) id
    · obtain ⟨_, rfl⟩ := e
      exact fun _ _ _ _ => hf rfl
  | fepPop k =>
    subst h5
    simp only [Op.Falls] at h6
    exact ⟨h6.1, by omega⟩
  | plain a =>
    subst h5
    have := I.plain a
    simp only [Interp.lower]
    cases hx : I.act a <;> simp only [hx, Source.Plain] at this <;> trivial
  | _ => subst h5; trivial

/-! ## A concrete case: the script `exBlk` of `SourceExamples` -/

theorem exScript_accepted : FromTokens exLim demoI exScript :=
  ⟨exBlk.toks, _, compile_render exBlk exBlk_ok, by decide, rfl⟩

def isPop {W V P : Type} : Instr W V P → Bool
  | .forEveryPartPop _ => true
  | _ => false

def isOut {W V P : Type} (c : Ctx W V P) : Instr W V P → Bool
  | .forEveryPart _ => c.partIter.isEmpty
  | _ => false

/-- Its sessions get to a `ForEveryPartPop` … -/
example : ((play bare (Ctx.new []) [.script ⟨false, ""⟩ exScript, .true, .true, .true]).any fun r =>
    (passes r.1).any fun c => (fetch c).any isPop) = true := by decide

/-- … and the assertions hold in all of them, whatever the host answers. -/
example {h c i} (hh : Hist bare (Ctx.new []) h (.running c)) (hs : ∀ s ∈ scriptsOf h, s = exScript)
    (hi : fetch c = some i) : Holds bare c i :=
  asserted (lim := exLim) (I := demoI) (by simp [bare]) hh (fun s h => hs s h ▸ exScript_accepted) hi

/-- A script with `continue` inside a `foreverypart` loop, which leaves an entry on the stack of parts
for good, is covered as well. -/
def strayBlk : DBlk :=
  .cons (.loop (fewer 3) (.cons (.act [tick]) (.cons (.parts none (.cons .cont .nil) none) .nil)) none)
    (.cons (.parts none (.cons (.act [filePart]) .nil) none) .nil)

theorem strayBlk_ok : strayBlk.Ok exLim [] := by
  simp [strayBlk, exLim, Blk.Ok, Stmt.Ok, innerWhile, partsCount]

def strayScript : Script (List String) Nat String := ⟨(strayBlk.code [] 0).map demoI.lower, 0, 0⟩

example : FromTokens exLim demoI strayScript :=
  ⟨strayBlk.toks, _, compile_render strayBlk strayBlk_ok, by decide, rfl⟩

/-- It gets to a `ForEveryPart` without parts left. -/
example : ((play bare (Ctx.new []) [.script ⟨false, ""⟩ strayScript, .true, .true, .true, .true, .true]).any fun r =>
    (passes r.1).any fun c => (fetch c).any (isOut c)) = true := by decide

/-- The assertion is not vacuous: in a state the compiler's scripts never lead to it fails. -/
example : ¬ Holds bare { Ctx.new [] with partStack := [] } (.forEveryPartPop 1) := by
  intro h
  exact absurd h.2 (by decide)

end Sieve.Assert
