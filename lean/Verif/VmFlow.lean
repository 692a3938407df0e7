import Verif.VmIds

/-!
# Control flow of single passes, and where scripts come from
-/

namespace Sieve.Vm

variable {W V P : Type}

/-- Instructions that may be executed again after a host function call. -/
def Resumes : Instr W V P → Prop
  | .eval _ => True
  | .while _ _ => True
  | .let_ _ _ => True
  | _ => False

/-- `c'` is `c` with the script `s` pushed by an include of a script that is at hand. -/
structure Pushes (cfg : Cfg W V P) (c c' : Ctx W V P) (i : Instr W V P) : Prop where
  push : ∃ once o f n s, i = .include once o f ∧ f c.view = some n
    ∧ (lookup c.cache n).or (cfg.registered n.str) = some s
    ∧ (once = true → lookup c.cache n = none)
    ∧ c.stack.length < cfg.maxIncludes ∧ c' = pushScript cfg c s

/-- How control moves when an instruction is executed. -/
def Flow (cfg : Cfg W V P) (c : Ctx W V P) (i : Instr W V P) : Step W V P → Prop
  | .cont c' =>
    (c'.stack = c.stack ∧ c'.cache = c.cache ∧ (c'.pos = c.pos ∨ target i = some c'.pos))
    ∨ Pushes cfg c c' i
    ∨ (i = .return_ ∧ ∃ fr rest, c.stack = fr :: rest ∧ rest ≠ [] ∧
        c' = { c with stack := rest, pos := fr.prevPos, locals := fr.prevLocals,
                      matchv := fr.prevMatch })
  | .ret o c' =>
    c'.cache = c.cache ∧ (∀ e ∈ c'.queue, notInclude e) ∧
    ((c'.stack = c.stack ∧ (c'.pos = c.pos ∨ (c'.pos = c.pos - 1 ∧ Resumes i))
      ∧ ∀ n op, o = .event (.includeScript n op) →
          (∃ a b f, i = .include a b f ∧ f c.view = some n) ∧ c.stack.length < cfg.maxIncludes
            ∧ c'.pos = c.pos)
    ∨ (c'.stack = [] ∧ ∀ n op, o ≠ .event (.includeScript n op)))

theorem settle_notInclude {cfg : Cfg W V P} {c : Ctx W V P}
    (hf : c.final = none ∨ c.final = some .discard ∨ ∃ fl i, c.final = some (.keep fl i)) :
    ∀ e ∈ (settle cfg c).1, notInclude e := by
  unfold settle
  rcases hf with hf | hf | ⟨fl, i, hf⟩ <;> rw [hf]
  · simp
  · simp [notInclude]
  · simp only
    intro e he
    split at he
    · simp only [List.mem_singleton] at he
      subst he
      trivial
    · rename_i hb
      simp only [List.mem_append, List.mem_singleton] at he
      rcases he with he | rfl
      · exact notInclude_of_quiet (build_quiet cfg _ e he)
      · trivial

theorem finish_notInclude {cfg : Cfg W V P} {c c' : Ctx W V P} {o}
    (hf : c.final = none ∨ c.final = some .discard ∨ ∃ fl i, c.final = some (.keep fl i))
    (hq : ∀ e ∈ c.queue, quiet e)
    (h : finish cfg c = .ret o c') :
    (∀ n op, o ≠ .event (.includeScript n op)) ∧ ∀ e ∈ c'.queue, notInclude e := by
  have h1 := settle_notInclude (cfg := cfg) hf
  have h2 := (settle_spec cfg c).2.2.1
  unfold finish at h
  split at h
  · rename_i c1 he
    rw [he] at h2
    injection h with h3 h4
    subst h3; subst h4
    refine ⟨by simp, ?_⟩
    simp only at h2
    rw [h2]
    exact fun e he => notInclude_of_quiet (hq e he)
  · rename_i e c1 he
    rw [he] at h1 h2
    injection h with h3 h4
    subst h3; subst h4
    refine ⟨?_, ?_⟩
    · intro n op hx
      injection hx with hx
      have := h1 e (by simp)
      rw [hx] at this
      exact this
    · simp only at h2
      rw [h2]
      exact fun e he => notInclude_of_quiet (hq e he)
  · rename_i e es c1 _ he
    rw [he] at h1
    injection h with h3 h4
    subst h3; subst h4
    refine ⟨?_, fun x hx => h1 x (by simp [hx])⟩
    intro n op hx
    injection hx with hx
    have := h1 e (by simp)
    rw [hx] at this
    exact this

theorem finishLoop_notInclude {cfg : Cfg W V P} {c : Ctx W V P}
    (hf : c.final = none ∨ c.final = some .discard ∨ ∃ fl i, c.final = some (.keep fl i))
    (hq : ∀ e ∈ c.queue, quiet e) : ∀ e ∈ (finishLoop cfg c).queue, notInclude e := by
  have h1 := settle_notInclude (cfg := cfg) (c := { c with stack := [] }) hf
  have h2 := (settle_spec cfg { c with stack := [] }).2.2.1
  unfold finishLoop
  split
  · rename_i c1 he
    rw [he] at h2
    simp only at h2
    rw [h2]
    exact fun e he => notInclude_of_quiet (hq e he)
  · rename_i es c1 _ he
    rw [he] at h1
    exact h1

theorem exec_flow {cfg : Cfg W V P} {c : Ctx W V P}
    (hf : c.final = none ∨ c.final = some .discard ∨ ∃ fl i, c.final = some (.keep fl i))
    (hq : ∀ e ∈ c.queue, quiet e) (i : Instr W V P) : Flow cfg c i (exec cfg c i) := by
  have fin : ∀ d : Ctx W V P, d.stack = [] → d.cache = c.cache →
      (d.final = none ∨ d.final = some .discard ∨ ∃ fl i, d.final = some (.keep fl i)) →
      d.queue = c.queue → Flow cfg c i (finish cfg d) := by
    intro d h1 h2 h3 h5
    cases h : finish cfg d with
    | cont c' => exact absurd h (finish_not_cont _ _ _)
    | ret o c' =>
      obtain ⟨h4, _⟩ := finish_ret h
      obtain ⟨h6, h7⟩ := finish_notInclude h3 (by rw [h5]; exact hq) h
      exact ⟨by rw [h4.2, h2], h7, Or.inr ⟨by rw [h4.1, h1], h6⟩⟩
  have floop : ∀ (d : Ctx W V P) er, d.cache = c.cache → d.final = c.final → d.queue = c.queue →
      Flow cfg c i (.ret (.error er) (finishLoop cfg d)) := by
    intro d er h1 h2 h3
    obtain ⟨a, _, _, b, _⟩ := finishLoop_spec cfg d
    exact ⟨by rw [b, h1], finishLoop_notInclude (by rw [h2]; exact hf) (by rw [h3]; exact hq),
      Or.inr ⟨a, by simp⟩⟩
  have dr : ∀ d : Ctx W V P, SameCtl c d → (∀ e ∈ d.queue, quiet e) → Flow cfg c i (drain d) := by
    intro d h1 h2
    unfold drain
    split
    · exact Or.inl ⟨h1.1, h1.2, Or.inl h1.3⟩
    · rename_i e q he
      refine ⟨h1.2, fun x hx => notInclude_of_quiet (h2 x (by rw [he]; simp [hx])),
        Or.inl ⟨h1.1, Or.inl h1.3, ?_⟩⟩
      intro n op ho
      injection ho with ho
      have := h2 e (by rw [he]; simp)
      rw [ho] at this
      exact absurd this id
  have st : ∀ d : Ctx W V P, d.stack = c.stack → d.cache = c.cache →
      (d.pos = c.pos ∨ target i = some d.pos) → Flow cfg c i (.cont d) := by
    intro d h1 h2 h3
    exact Or.inl ⟨h1, h2, h3⟩
  have ret : ∀ (d : Ctx W V P) e, d.stack = c.stack → d.cache = c.cache →
      (d.pos = c.pos ∨ (d.pos = c.pos - 1 ∧ Resumes i)) → (∀ n op, e ≠ .includeScript n op) →
      d.queue = c.queue → Flow cfg c i (.ret (.event e) d) := by
    intro d e h1 h2 h3 h4 h5
    exact ⟨h2, fun x hx => notInclude_of_quiet (hq x (by rw [← h5]; exact hx)), Or.inl ⟨h1, h3, fun n op h => absurd (by injection h) (h4 n op)⟩⟩
  cases i with
  | jz t =>
    simp only [exec]
    split
    · exact st _ rfl rfl (Or.inl rfl)
    · exact st _ rfl rfl (Or.inr rfl)
  | jnz t =>
    simp only [exec]
    split
    · exact st _ rfl rfl (Or.inr rfl)
    · exact st _ rfl rfl (Or.inl rfl)
  | jmp t => exact st _ rfl rfl (Or.inr rfl)
  | test f =>
    simp only [exec]
    split
    · exact st _ rfl rfl (Or.inl rfl)
    · exact ret _ _ rfl rfl (Or.inl rfl) (by simp) rfl
    · exact floop _ _ rfl rfl rfl
  | eval f =>
    simp only [exec]
    split
    · exact st _ rfl rfl (Or.inl rfl)
    · exact ret _ _ rfl rfl (Or.inr ⟨rfl, trivial⟩) (by simp) rfl
  | clear a b m => exact st _ rfl rfl (Or.inl rfl)
  | keep fl =>
    simp only [exec]
    split
    · exact st _ (by simp) (by simp) (Or.inl (by simp))
    · rename_i e l he
      refine ret _ _ (by simp) (by simp) (Or.inl (by simp)) ?_ (by simp)
      intro n op hx
      have := build_quiet cfg c e (by rw [he]; simp)
      rw [hx] at this
      exact this
  | fileInto a b f =>
    refine dr _ (sameCtl_fileInto ..) ?_
    intro e he
    simp only [execFileInto, List.mem_append, List.mem_singleton] at he
    rcases he with he | rfl
    · exact build_quiet cfg c e he
    · trivial
  | redirect a b f =>
    refine dr _ (sameCtl_redirect ..) ?_
    unfold execRedirect
    split
    · exact hq
    · split
      · split
        · exact hq
        · intro e he
          simp only [List.mem_append, List.mem_singleton] at he
          rcases he with he | rfl
          · exact build_quiet cfg _ e he
          · trivial
      · exact hq
  | discard => exact st _ rfl rfl (Or.inl rfl)
  | stop => exact fin _ rfl rfl hf rfl
  | reject f => exact ret _ _ rfl rfl (Or.inl rfl) (by simp) rfl
  | forEveryPart t =>
    simp only [exec]
    split
    · exact st _ rfl rfl (Or.inl rfl)
    · split
      · exact st _ rfl rfl (Or.inr rfl)
      · exact st _ rfl rfl (Or.inl rfl)
  | forEveryPartPush => exact st _ rfl rfl (Or.inl rfl)
  | forEveryPartPop n =>
    have := sameCtl_popParts n c
    exact st _ this.1 this.2 (Or.inl this.3)
  | «while» f t =>
    simp only [exec]
    split
    · split
      · exact st _ rfl rfl (Or.inl rfl)
      · exact st _ rfl rfl (Or.inr rfl)
    · exact ret _ _ rfl rfl (Or.inr ⟨rfl, trivial⟩) (by simp) rfl
  | let_ t f =>
    simp only [exec]
    split
    · rename_i v w _
      have := sameCtl_setTarget { c with world := w } t v
      exact st _ this.1 this.2 (Or.inl this.3)
    · exact ret _ _ rfl rfl (Or.inr ⟨rfl, trivial⟩) (by simp) rfl
  | edit f => exact st _ rfl rfl (Or.inl rfl)
  | assign t f => exact dr _ (sameCtl_setTarget ..) (setTarget_quiet hq)
  | editFlags t f =>
    have := sameCtl_setTarget c t (f c.view)
    exact st _ this.1 this.2 (Or.inl this.3)
  | notify f g => exact dr _ (sameCtl_notify ..) (notify_quiet hq)
  | vacation f g =>
    show Flow cfg c _ (drain (execVacation c f g))
    refine dr _ (sameCtl_vacation ..) ?_
    intro e he
    simp only [execVacation, List.mem_append, List.mem_cons, List.not_mem_nil, or_false] at he
    rcases he with (rfl | rfl) | he
    · trivial
    · trivial
    · exact fcc_quiet _ _ _ e he
  | «include» once op f =>
    cases hn : f c.view with
    | none =>
      simp only [exec, execInclude, hn]
      exact st _ rfl rfl (Or.inl rfl)
    | some n =>
      simp only [exec, execInclude, hn]
      by_cases h1 : (!once || (lookup c.cache n).isNone) = true
      · rw [if_pos h1]
        by_cases h2 : c.stack.length < cfg.maxIncludes
        · rw [if_pos h2]
          cases h3 : (lookup c.cache n).or (cfg.registered n.str) with
          | some s =>
            simp only
            refine Or.inr (Or.inl ⟨once, op, f, n, s, rfl, hn, h3, ?_, h2, rfl⟩)
            intro ho
            subst ho
            simpa using h1
          | none =>
            simp only
            refine ⟨rfl, fun x hx => notInclude_of_quiet (hq x hx), Or.inl ⟨rfl, Or.inl rfl, ?_⟩⟩
            intro n' op' h
            injection h with h
            injection h with h h'
            subst h
            exact ⟨⟨_, _, _, rfl, hn⟩, h2, rfl⟩
        · rw [if_neg h2]
          exact floop _ _ rfl rfl rfl
      · rw [if_neg h1]
        exact st _ rfl rfl (Or.inl rfl)
  | return_ =>
    simp only [exec]
    unfold leave
    split
    · rename_i hs
      exact fin _ hs rfl hf rfl
    · rename_i fr rest hs
      simp only
      by_cases hr : rest = []
      · subst hr
        exact fin _ rfl rfl hf rfl
      · rw [if_neg (by simpa using hr)]
        exact Or.inr (Or.inr ⟨rfl, fr, rest, hs, hr, rfl⟩)
  | require caps =>
    simp only [exec]
    split
    · exact st _ rfl rfl (Or.inl rfl)
    · exact floop _ _ rfl rfl rfl
  | error f => exact floop _ _ rfl rfl rfl
  | invalid p => exact floop _ _ rfl rfl rfl

/-! ## Where scripts come from -/

theorem lookup_mem {cache : List (Name × Script W V P)} {n s} (h : lookup cache n = some s) :
    ∃ m, (m, s) ∈ cache := by
  unfold lookup at h
  rw [Option.map_eq_some_iff] at h
  obtain ⟨x, hx, rfl⟩ := h
  exact ⟨x.1, List.mem_of_find?_eq_some hx⟩

/-- All active and cached scripts satisfy `Q`. -/
def AllScripts (Q : Script W V P → Prop) (c : Ctx W V P) : Prop :=
  (∀ fr ∈ c.stack, Q fr.script) ∧ ∀ x ∈ c.cache, Q x.2

theorem allScripts_push {cfg : Cfg W V P} {Q : Script W V P → Prop} (hreg : ∀ n s, cfg.registered n = some s → Q s)
    {c c' : Ctx W V P} {i} (h : AllScripts Q c) (hp : Pushes cfg c c' i) : AllScripts Q c' := by
  obtain ⟨_, _, f, n, s, _, _, h3, _, _, rfl⟩ := hp.push
  refine ⟨?_, h.2⟩
  intro fr hfr
  simp only [pushScript, List.mem_cons] at hfr
  rcases hfr with rfl | hfr
  · cases hl : lookup c.cache n with
    | some s' =>
      rw [hl] at h3
      simp only [Option.some_or, Option.some.injEq] at h3
      subst h3
      obtain ⟨m, hm⟩ := lookup_mem hl
      exact h.2 _ hm
    | none =>
      rw [hl] at h3
      simp only [Option.none_or] at h3
      exact hreg _ _ h3
  · exact h.1 fr hfr

theorem step_flow {cfg : Cfg W V P} {c : Ctx W V P}
    (hf : c.final = none ∨ c.final = some .discard ∨ ∃ fl i, c.final = some (.keep fl i))
    (hq : ∀ e ∈ c.queue, quiet e) {fr rest} (hs : c.stack = fr :: rest) :
    (∃ i, fetch c = some i ∧ c.numInstr < cfg.cpuLimit ∧
      step cfg c = exec cfg { c with numInstr := c.numInstr + 1, pos := c.pos + 1 } i
      ∧ Flow cfg { c with numInstr := c.numInstr + 1, pos := c.pos + 1 } i (step cfg c))
    ∨ (∃ o c', step cfg c = .ret o c' ∧ c'.cache = c.cache
        ∧ (c'.stack = [] ∨ (c' = c ∧ fr.script.instrs.length < c.pos))
        ∧ (∀ n op, o ≠ .event (.includeScript n op)) ∧ ∀ e ∈ c'.queue, notInclude e)
    ∨ (rest ≠ [] ∧ step cfg c = .cont { c with
        stack := rest, pos := fr.prevPos, locals := fr.prevLocals, matchv := fr.prevMatch }) := by
  rcases step_cases (cfg := cfg) hs with ⟨_, i, hi, hfe, ⟨hl', e⟩ | ⟨hl', e⟩⟩ | ⟨_, _, e⟩ | ⟨_, hlen, e⟩
  · obtain ⟨a, _, _, b, _⟩ := finishLoop_spec cfg { c with numInstr := c.numInstr + 1 }
    exact Or.inr (Or.inl ⟨_, _, e, b, Or.inl a, by simp,
      finishLoop_notInclude (c := { c with numInstr := c.numInstr + 1 }) hf hq⟩)
  · refine Or.inl ⟨i, hfe, hl', e, ?_⟩
    rw [e]
    exact exec_flow (c := { c with numInstr := c.numInstr + 1, pos := c.pos + 1 }) hf hq i
  · by_cases hr : rest = []
    · subst hr
      have hle : step cfg c = finish cfg { c with stack := [], pos := fr.prevPos, locals := fr.prevLocals, matchv := fr.prevMatch } := by
        rw [e]; unfold leave; rw [hs]; rfl
      cases hfin : finish cfg { c with stack := [], pos := fr.prevPos, locals := fr.prevLocals, matchv := fr.prevMatch } with
      | cont c' => exact absurd hfin (finish_not_cont _ _ _)
      | ret o c' =>
        obtain ⟨h4, _⟩ := finish_ret hfin
        exact Or.inr (Or.inl ⟨o, c', by rw [hle, hfin], h4.2, Or.inl h4.1, finish_notInclude (c := { c with stack := [], pos := fr.prevPos, locals := fr.prevLocals, matchv := fr.prevMatch }) hf hq hfin⟩)
    · refine Or.inr (Or.inr ⟨hr, ?_⟩)
      rw [e]
      unfold leave
      rw [hs]
      simp only
      rw [if_neg (by simpa using hr)]
  · exact Or.inr (Or.inl ⟨_, _, e, rfl, Or.inr ⟨rfl, hlen⟩, by simp,
      fun x hx => notInclude_of_quiet (hq x hx)⟩)

/-- The state a mode carries. -/
theorem settled_quiet {c : Ctx W V P} (h : Settled c) : ∀ e ∈ c.queue, quiet e := by
  intro e he
  obtain ⟨p, rfl⟩ := h e he
  trivial

theorem running_inv {cfg : Cfg W V P} {w : W} {h c} (hh : Hist cfg (Ctx.new w) h (.running c)) :
    Inv cfg False (events h) c ∧ Settled c :=
  invariant (G := False) hh (fun h => h.elim)

theorem input_scripts {cfg : Cfg W V P} {Q : Script W V P → Prop} {c : Ctx W V P} (h : AllScripts Q c)
    (i : Input W V P) (hi : ∀ n s, i = .script n s → Q s) : AllScripts Q (applyInput cfg c i) := by
  cases i with
  | script n s =>
    have hs := hi n s rfl
    simp only [applyInput]
    split
    · constructor
      · intro fr hfr
        simp only [pushScript, List.mem_cons] at hfr
        rcases hfr with rfl | hfr
        · exact hs
        · exact h.1 fr hfr
      · intro x hx
        simp only [pushScript, List.mem_cons] at hx
        rcases hx with rfl | hx
        · exact hs
        · exact h.2 x hx
    · exact h
  | _ => exact h

/-- Every active or cached script was registered or handed over by the host. -/
theorem all_scripts {cfg : Cfg W V P} {w : W} {Q : Script W V P → Prop} {h m}
    (hreg : ∀ n s, cfg.registered n = some s → Q s) (hh : Hist cfg (Ctx.new w) h m)
    (hhost : ∀ s ∈ scriptsOf h, Q s) : AllScripts Q (modeCtx m) := by
  induction hh with
  | start => exact ⟨by simp [modeCtx, Ctx.new], by simp [modeCtx, Ctx.new]⟩
  | @feedRet h c i o c' hh he ih =>
    have ih := ih (fun s hs => hhost s (by rw [scriptsOf_append]; simp [hs]))
    have h1 := input_scripts (cfg := cfg) ih i (by
      rintro n s rfl
      exact hhost s (by rw [scriptsOf_append]; simp [scriptsOf]))
    rcases enter_ret he with ⟨ev, q, _, rfl, rfl⟩ | ⟨_, _, rfl, rfl⟩
    · exact h1
    · exact h1
  | @feedGo h c i c' hh he ih =>
    have ih := ih (fun s hs => hhost s (by rw [scriptsOf_append]; simp [hs]))
    have h1 := input_scripts (cfg := cfg) ih i (by
      rintro n s rfl
      exact hhost s (by rw [scriptsOf_append]; simp [scriptsOf]))
    obtain ⟨rfl, _⟩ := enter_cont he
    exact h1
  | @pass h c c' hh he ih =>
    have ih := ih (fun s hs => hhost s (by rw [scriptsOf_append]; simp [hs]))
    obtain ⟨h1, h2⟩ := running_inv hh
    cases hs : c.stack with
    | nil => simp [step, hs] at he
    | cons fr rest =>
      rcases step_flow (cfg := cfg) h1.finT (settled_quiet h2) hs with ⟨i, _, _, _, hfl⟩ | ⟨o, c1, e, _⟩ | ⟨_, e⟩
      · rw [he] at hfl
        rcases hfl with ⟨a, b, _⟩ | hp | ⟨_, fr', rest', a, _, rfl⟩
        · exact ⟨by simp only [modeCtx]; rw [a]; exact ih.1, by simp only [modeCtx]; rw [b]; exact ih.2⟩
        · exact allScripts_push hreg (c := { c with numInstr := c.numInstr + 1, pos := c.pos + 1 }) ih hp
        · refine ⟨?_, ih.2⟩
          intro fr hfr
          refine ih.1 fr ?_
          simp only [modeCtx]
          simp only at a hfr
          rw [a]
          exact List.mem_cons_of_mem _ hfr
      · rw [e] at he; simp at he
      · rw [e] at he
        injection he with he
        subst he
        refine ⟨?_, ih.2⟩
        intro fr' hfr
        refine ih.1 fr' ?_
        simp only [modeCtx]
        rw [hs]
        exact List.mem_cons_of_mem _ hfr
  | @passRet h c o c' hh he ih =>
    have ih := ih (fun s hs => hhost s (by rw [scriptsOf_append]; simp [hs]))
    obtain ⟨h1, h2⟩ := running_inv hh
    cases hs : c.stack with
    | nil =>
      simp only [step, hs] at he
      injection he with _ he
      subst he
      exact ih
    | cons fr rest =>
      rcases step_flow (cfg := cfg) h1.finT (settled_quiet h2) hs with ⟨i, _, _, _, hfl⟩ | ⟨o, c1, e, a, b, _⟩ | ⟨_, e⟩
      · rw [he] at hfl
        obtain ⟨a, _, b⟩ := hfl
        refine ⟨?_, by simp only [modeCtx]; rw [a]; exact ih.2⟩
        simp only [modeCtx]
        rcases b with ⟨b, _⟩ | ⟨b, _⟩
        · rw [b]; exact ih.1
        · rw [b]; simp
      · rw [e] at he
        injection he with _ he
        subst he
        refine ⟨?_, by simp only [modeCtx]; rw [a]; exact ih.2⟩
        simp only [modeCtx]
        rcases b with b | ⟨rfl, _⟩
        · rw [b]; simp
        · exact ih.1
      · rw [e] at he; simp at he

/-! ## Induction over sessions that follow the protocol -/

/-- The history ends with a request for a script. -/
def Asked (h : List (Label W V P)) : Prop :=
  ∃ h' n o, h = h' ++ [.output (.event (.includeScript n o))]

/-- An induction principle.  `Ir` holds while the interpreter is running, `Iw` while the host is to
act, and `A` in addition when a script was asked for. -/
theorem session_rule {cfg : Cfg W V P} {w : W} {Q : Script W V P → Prop}
    {Ir Iw A : Ctx W V P → Prop} (hreg : ∀ n s, cfg.registered n = some s → Q s)
    (init : Iw (Ctx.new w))
    (first : ∀ n s, Accepted s → Q s → Iw (applyInput cfg (Ctx.new w) (.script n s)))
    (answer : ∀ c i, (∀ n s, i ≠ .script n s) → Iw c → Iw (applyInput cfg c i))
    (incl : ∀ c n s, Iw c → A c → Q s → Iw (applyInput cfg c (.script n s)))
    (queue : ∀ c e q, c.queue = e :: q → Iw c → Iw { c with queue := q })
    (go : ∀ c, c.queue = [] → Iw c → Ir c)
    (cont : ∀ h c c', Hist cfg (Ctx.new w) h (.running c) → AllScripts Q c → Ir c →
      step cfg c = .cont c' → Ir c')
    (ret : ∀ h c o c', Hist cfg (Ctx.new w) h (.running c) → AllScripts Q c → Ir c →
      step cfg c = .ret o c' → Iw c' ∧ ∀ n op, o = .event (.includeScript n op) → A c')
    {h m} (hh : Hist cfg (Ctx.new w) h m) (hp : h ≠ [] → Protocol h)
    (hhost : ∀ s ∈ scriptsOf h, Q s) :
    match m with
    | .running c => Ir c
    | .waiting c => Iw c ∧ (∀ e ∈ c.queue, notInclude e) ∧ (Asked h → A c) := by
  -- what the host's input leads to
  have inp : ∀ h c i, Hist cfg (Ctx.new w) h (.waiting c) → Protocol (h ++ [.input i]) →
      (∀ s ∈ scriptsOf (h ++ [.input i]), Q s) → Iw c → (Asked h → A c) → Iw (applyInput cfg c i) := by
    intro h c i hh hp hsc h1 h2
    rcases protocol_inv hp with ⟨rfl, n, s, hl, ha⟩ | ⟨hp0, hl⟩
    · injection hl with hl; subst hl
      have := hist_nil hh
      subst this
      exact first n s ha (hsc s (by simp [scriptsOf]))
    · by_cases hi : ∃ n s, i = .script n s
      · obtain ⟨n, s, rfl⟩ := hi
        exact incl c n s h1 (h2 (hl n s rfl)) (hsc s (by rw [scriptsOf_append]; simp [scriptsOf]))
      · exact answer c i (fun n s e => hi ⟨n, s, e⟩) h1
  have qinp : ∀ (c : Ctx W V P) i, (applyInput cfg c i).queue = c.queue := by
    intro c i
    cases i with
    | script n s => simp only [applyInput]; split <;> rfl
    | _ => rfl
  have pre : ∀ (a b : List (Label W V P)), (a ++ b ≠ [] → Protocol (a ++ b)) → a ≠ [] → Protocol a :=
    fun a b h ha => protocol_prefix (h (by simp [ha])) ha
  induction hh with
  | start =>
    refine ⟨init, by simp [Ctx.new], ?_⟩
    rintro ⟨h', n, o, h⟩
    simp at h
  | @feedRet h c i o c' hh he ih =>
    have hsc : ∀ s ∈ scriptsOf (h ++ [.input i]), Q s := fun s hs => hhost s (by
      rw [show h ++ [Label.input i, .output o] = (h ++ [.input i]) ++ [.output o] by simp,
        scriptsOf_append]
      simp [hs])
    obtain ⟨i1, i2, i3⟩ := ih (pre _ _ hp) (fun s hs => hsc s (by rw [scriptsOf_append]; simp [hs]))
    have hI := inp h c i hh (pre _ [.output o] (by simpa using hp) (by simp)) hsc i1 i3
    have i2 : ∀ e ∈ (applyInput cfg c i).queue, notInclude e := by rw [qinp]; exact i2
    rcases enter_ret he with ⟨ev, q, hq, rfl, rfl⟩ | ⟨hq, _, rfl, rfl⟩
    · refine ⟨queue _ _ _ hq hI, fun e he => i2 e (by rw [hq]; simp [he]), ?_⟩
      rintro ⟨h', n, op, e⟩
      have := last_ne e
      injection this with this
      injection this with this
      have h4 := i2 ev (by rw [hq]; simp)
      rw [this] at h4
      exact absurd h4 id
    · refine ⟨hI, i2, ?_⟩
      rintro ⟨h', n, op, e⟩
      have := last_ne e
      simp at this
  | @feedGo h c i c' hh he ih =>
    obtain ⟨i1, i2, i3⟩ := ih (pre _ _ hp) (fun s hs => hhost s (by rw [scriptsOf_append]; simp [hs]))
    obtain ⟨rfl, hq, _⟩ := enter_cont he
    exact go _ hq (inp h c i hh (hp (by simp)) hhost i1 i3)
  | @pass h c c' hh he ih =>
    have hsc : ∀ s ∈ scriptsOf h, Q s := fun s hs => hhost s (by rw [scriptsOf_append]; simp [hs])
    exact cont h c c' hh (all_scripts hreg hh hsc) (ih (pre _ _ hp) hsc) he
  | @passRet h c o c' hh he ih =>
    have hsc : ∀ s ∈ scriptsOf h, Q s := fun s hs => hhost s (by rw [scriptsOf_append]; simp [hs])
    obtain ⟨h1, h2⟩ := ret h c o c' hh (all_scripts hreg hh hsc) (ih (pre _ _ hp) hsc) he
    obtain ⟨k1, k2⟩ := running_inv hh
    refine ⟨h1, ?_, ?_⟩
    · cases hs : c.stack with
      | nil =>
        simp only [step, hs] at he
        injection he with _ he
        subst he
        exact fun x hx => notInclude_of_quiet (settled_quiet k2 x hx)
      | cons fr rest =>
        rcases step_flow (cfg := cfg) k1.finT (settled_quiet k2) hs with ⟨i, _, _, _, hfl⟩ | ⟨o, c1, e, _, _, _, b⟩ | ⟨_, e⟩
        · rw [he] at hfl
          exact hfl.2.1
        · rw [e] at he
          injection he with _ he
          subst he
          exact b
        · rw [e] at he; simp at he
    · rintro ⟨h', n, op, e⟩
      have := last_ne e
      injection this with this
      exact h2 n op this

end Sieve.Vm
