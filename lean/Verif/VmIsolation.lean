import Verif.VmAnswers

/-!
# Included scripts and the variables of their callers (C43)
-/

namespace Sieve.Vm

variable {W V P : Type}

/-- One move: the host calls `run`, or the interpreter makes a pass. -/
inductive Move (cfg : Cfg W V P) : Mode W V P → Mode W V P → Prop where
  | feedRet {c i o c'} : enter (applyInput cfg c i) = .ret o c' → Move cfg (.waiting c) (.waiting c')
  | feedGo {c i c'} : enter (applyInput cfg c i) = .cont c' → Move cfg (.waiting c) (.running c')
  | pass {c c'} : step cfg c = .cont c' → Move cfg (.running c) (.running c')
  | passRet {c o c'} : step cfg c = .ret o c' → Move cfg (.running c) (.waiting c')

/-- Any number of moves, through modes with more than `n` active scripts. -/
inductive Inside (cfg : Cfg W V P) (n : Nat) (m : Mode W V P) : Mode W V P → Prop where
  | refl : Inside cfg n m m
  | next {m1 m2} : Inside cfg n m m1 → Move cfg m1 m2 → n < (modeCtx m2).stack.length →
      Inside cfg n m m2

theorem move_hist {cfg : Cfg W V P} {c0 : Ctx W V P} {h m m'} (hh : Hist cfg c0 h m)
    (hm : Move cfg m m') : ∃ h', Hist cfg c0 h' m' := by
  cases hm with
  | feedRet he => exact ⟨_, Hist.feedRet hh he⟩
  | feedGo he => exact ⟨_, Hist.feedGo hh he⟩
  | pass he => exact ⟨_, Hist.pass hh he⟩
  | passRet he => exact ⟨_, Hist.passRet hh he⟩

theorem inside_hist {cfg : Cfg W V P} {c0 : Ctx W V P} {h n m m'} (hh : Hist cfg c0 h m)
    (hm : Inside cfg n m m') : ∃ h', Hist cfg c0 h' m' := by
  induction hm with
  | refl => exact ⟨h, hh⟩
  | next _ hmv _ ih =>
    obtain ⟨h', hh'⟩ := ih
    exact move_hist hh' hmv

/-- What a move does to the stack of scripts. -/
theorem move_stack {cfg : Cfg W V P} {w : W} {h m m'} (hh : Hist cfg (Ctx.new w) h m)
    (hm : Move cfg m m') :
    (modeCtx m').stack = (modeCtx m).stack
    ∨ (∃ f, (modeCtx m').stack = f :: (modeCtx m).stack)
    ∨ (∃ f, (modeCtx m).stack = f :: (modeCtx m').stack ∧ (modeCtx m').stack ≠ []
        ∧ (modeCtx m').pos = f.prevPos ∧ (modeCtx m').locals = f.prevLocals
        ∧ (modeCtx m').matchv = f.prevMatch ∧ (modeCtx m').world = (modeCtx m).world)
    ∨ (modeCtx m').stack = [] := by
  have inp : ∀ (c : Ctx W V P) i, (applyInput cfg c i).stack = c.stack ∨ ∃ f, (applyInput cfg c i).stack = f :: c.stack := by
    intro c i
    cases i with
    | script n s =>
      simp only [applyInput]
      split
      · exact Or.inr ⟨_, rfl⟩
      · exact Or.inl rfl
    | _ => exact Or.inl rfl
  cases hm with
  | @feedRet c i o c' he =>
    have : c'.stack = (applyInput cfg c i).stack := by
      rcases enter_ret he with ⟨ev, q, hq, rfl, rfl⟩ | ⟨hq, hst, rfl, rfl⟩ <;> rfl
    simp only [modeCtx]
    rw [this]
    rcases inp c i with h | h
    · exact Or.inl h
    · exact Or.inr (Or.inl h)
  | @feedGo c i c' he =>
    obtain ⟨rfl, _⟩ := enter_cont he
    simp only [modeCtx]
    rcases inp c i with h | h
    · exact Or.inl h
    · exact Or.inr (Or.inl h)
  | @pass c c' he =>
    obtain ⟨k1, k2⟩ := running_inv hh
    simp only [modeCtx]
    cases hs : c.stack with
    | nil => simp [step, hs] at he
    | cons fr rest =>
      rcases step_flow (cfg := cfg) k1.finT (settled_quiet k2) hs with ⟨i, _, _, _, hfl⟩ | ⟨o, c1, e, _⟩ | ⟨hne, e⟩
      · rw [he] at hfl
        rcases hfl with ⟨a, _⟩ | hpu | ⟨_, fr', rest', a, hne, rfl⟩
        · exact Or.inl (a.trans hs)
        · obtain ⟨_, _, f, n, s, rfl, _, h3, _, _, rfl⟩ := hpu.push
          simp only [pushScript]
          rw [hs]
          exact Or.inr (Or.inl ⟨_, rfl⟩)
        · simp only at a
          rw [hs] at a
          injection a with a1 a2
          subst a1; subst a2
          exact Or.inr (Or.inr (Or.inl ⟨fr, rfl, hne, rfl, rfl, rfl, rfl⟩))
      · rw [e] at he; simp at he
      · rw [e] at he
        injection he with he
        subst he
        exact Or.inr (Or.inr (Or.inl ⟨fr, rfl, hne, rfl, rfl, rfl, rfl⟩))
  | @passRet c o c' he =>
    obtain ⟨k1, k2⟩ := running_inv hh
    simp only [modeCtx]
    cases hs : c.stack with
    | nil =>
      simp only [step, hs] at he
      injection he with _ he
      subst he
      exact Or.inl hs
    | cons fr rest =>
      rcases step_flow (cfg := cfg) k1.finT (settled_quiet k2) hs with ⟨i, _, _, _, hfl⟩ | ⟨o, c1, e, _, b, _⟩ | ⟨_, e⟩
      · rw [he] at hfl
        obtain ⟨_, _, b⟩ := hfl
        rcases b with ⟨b, _⟩ | ⟨b, _⟩
        · exact Or.inl (b.trans hs)
        · exact Or.inr (Or.inr (Or.inr b))
      · rw [e] at he
        injection he with _ he
        subst he
        rcases b with b | ⟨rfl, _⟩
        · exact Or.inr (Or.inr (Or.inr b))
        · exact Or.inl hs
      · rw [e] at he; simp at he

/-- While an included script and the scripts it includes run, its frame stays. -/
theorem frame_stays {cfg : Cfg W V P} {w : W} {h m0 m1 f B} (hh : Hist cfg (Ctx.new w) h m0)
    (h0 : (modeCtx m0).stack = f :: B) (hi : Inside cfg B.length m0 m1) :
    ∃ pre, (modeCtx m1).stack = pre ++ f :: B := by
  induction hi with
  | refl => exact ⟨[], h0⟩
  | @next m1 m2 hin hmv hlen ih =>
    obtain ⟨pre, hpre⟩ := ih
    obtain ⟨h', hh'⟩ := inside_hist hh hin
    rcases move_stack hh' hmv with a | ⟨g, a⟩ | ⟨g, a, _⟩ | a
    · exact ⟨pre, a.trans hpre⟩
    · exact ⟨g :: pre, by rw [a, hpre]; rfl⟩
    · rw [hpre] at a
      cases pre with
      | nil =>
        simp only [List.nil_append, List.cons.injEq] at a
        rw [← a.2] at hlen
        omega
      | cons x pre =>
        simp only [List.cons_append, List.cons.injEq] at a
        exact ⟨pre, a.2.symm⟩
    · rw [a] at hlen
      simp at hlen

/-- **C43.** A script is called by an include, as `f` on top of its caller's frames `B`.  Whatever it
and the scripts it includes do, and whatever the host answers meanwhile: the first move that leaves
it either ends the run, or brings back the caller at the position, with the local and match
variables it had, and with the global state (message, global variables) as the script left it. -/
theorem include_isolated {cfg : Cfg W V P} {w : W} {h m0 m1 m2 f B} (hh : Hist cfg (Ctx.new w) h m0)
    (h0 : (modeCtx m0).stack = f :: B) (hi : Inside cfg B.length m0 m1)
    (hm : Move cfg m1 m2) (hout : (modeCtx m2).stack.length ≤ B.length) :
    (modeCtx m2).stack = []
    ∨ ((modeCtx m2).stack = B ∧ (modeCtx m2).pos = f.prevPos ∧ (modeCtx m2).locals = f.prevLocals
        ∧ (modeCtx m2).matchv = f.prevMatch ∧ (modeCtx m2).world = (modeCtx m1).world) := by
  obtain ⟨pre, hpre⟩ := frame_stays hh h0 hi
  obtain ⟨h', hh'⟩ := inside_hist hh hi
  have hlen := congrArg List.length hpre
  simp only [List.length_append, List.length_cons] at hlen
  rcases move_stack hh' hm with a | ⟨g, a⟩ | ⟨g, a, _, b⟩ | a
  · rw [a] at hout; omega
  · rw [a] at hout
    simp only [List.length_cons] at hout
    omega
  · have hl2 := congrArg List.length a
    simp only [List.length_cons] at hl2
    have : pre = [] := List.eq_nil_of_length_eq_zero (by omega)
    subst this
    rw [hpre] at a
    simp only [List.nil_append, List.cons.injEq] at a
    obtain ⟨rfl, rfl⟩ := a
    exact Or.inr ⟨rfl, b⟩
  · exact Or.inl a

/-- The include of a script that is at hand: the caller's variables are put aside unchanged, and the
included script starts with empty ones and the same global state. -/
theorem include_enters {cfg : Cfg W V P} {w : W} {h c c' once op f}
    (hh : Hist cfg (Ctx.new w) h (.running c)) (hf : fetch c = some (.include once op f))
    (hs : step cfg c = .cont c') (hp : c'.stack ≠ c.stack) :
    ∃ s, c'.stack = ⟨s, c.pos + 1, c.locals, c.matchv⟩ :: c.stack ∧ c'.pos = 0
      ∧ c'.locals = List.replicate s.numVars cfg.empty
      ∧ c'.matchv = List.replicate s.numMatchVars cfg.empty ∧ c'.world = c.world := by
  obtain ⟨k1, k2⟩ := running_inv hh
  obtain ⟨fr, rest, hst⟩ := stack_of_fetch hf
  rcases step_flow (cfg := cfg) k1.finT (settled_quiet k2) hst with ⟨i, hfe, _, _, hfl⟩ | ⟨o, c1, e, _⟩ | ⟨hne, e⟩
  · rw [hs] at hfl
    rcases hfl with ⟨a, _⟩ | hpu | ⟨hr, _⟩
    · exact absurd a hp
    · obtain ⟨_, _, f, n, s, rfl, _, h3, _, _, rfl⟩ := hpu.push
      exact ⟨s, rfl, rfl, rfl, rfl, rfl⟩
    · rw [hf] at hfe
      injection hfe with hfe
      rw [← hfe] at hr
      simp at hr
  · rw [e] at hs; simp at hs
  · rcases step_cases (cfg := cfg) hst with ⟨_, i, hi, hfe, ⟨hl', e'⟩ | ⟨hl', e'⟩⟩ | ⟨hfn, _⟩ | ⟨hfn, _⟩
    · rw [e'] at e; simp at e
    · rw [hf] at hfe
      injection hfe with hfe
      subst hfe
      exfalso
      rw [e'] at e
      simp only [exec] at e
      split at e
      · injection e with e
        have := congrArg (fun d : Ctx W V P => d.stack.length) e
        simp only [pushScript, hst, List.length_cons] at this
        omega
      · simp at e
      · simp at e
      · injection e with e
        have := congrArg (fun d : Ctx W V P => d.stack.length) e
        simp only [hst, List.length_cons] at this
        omega
    · rw [hf] at hfn; simp at hfn
    · rw [hf] at hfn; simp at hfn

/-- The include of a script supplied by the host, likewise. -/
theorem include_enters_host {cfg : Cfg W V P} {c : Ctx W V P} {n s} (ha : Accepted s) :
    (applyInput cfg c (.script n s)).stack = ⟨s, c.pos, c.locals, c.matchv⟩ :: c.stack
      ∧ (applyInput cfg c (.script n s)).pos = 0
      ∧ (applyInput cfg c (.script n s)).locals = List.replicate s.numVars cfg.empty
      ∧ (applyInput cfg c (.script n s)).matchv = List.replicate s.numMatchVars cfg.empty
      ∧ (applyInput cfg c (.script n s)).world = c.world := by
  simp only [applyInput]
  rw [if_pos (show s.numMatchVars ≤ maxMatchVars ∧ s.numVars ≤ maxLocalVars from ha)]
  exact ⟨rfl, rfl, rfl, rfl, rfl⟩

/-- The included script overwrites its variable 0; the caller's variable 0 keeps its value 7, which
decides the test after the include. -/
example : sees [start [.assign (.local 0) (fun _ => 7), .include false false (fun _ => some ⟨false, "inner"⟩),
        .test (fun v => ⟨.bool (v.locals == [7, 0, 0, 0]), v.matchv, v.world, false⟩), .jz 5, fileTo "A" false],
      .script ⟨false, "inner"⟩ (script [.assign (.local 0) (fun v => (v.locals.headD 9) + 1),
        .test (fun v => ⟨.bool (v.locals == [1, 0, 0, 0]), v.matchv, v.world, false⟩), .jz 4, fileTo "B" false]), .true, .true]
    = some [.event (.includeScript ⟨false, "inner"⟩ false), .event (.fileInto "B" [] 0), .event (.fileInto "A" [] 0), .none] := by
  decide

end Sieve.Vm
