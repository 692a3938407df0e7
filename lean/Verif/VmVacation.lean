import Verif.VmLimits
import Verif.VmAnswers
import Verif.VacationProps

/-!
# C41: a vacation action is only executed after the host has been asked

Every session in which a vacation action is executed ends with the test of that action, the question
to the host, its answer, and the jump that was not taken.
-/

namespace Sieve.Vm

variable {W V P : Type}

/-- Vacations are guarded (`Guarded`), and the test before a vacation is one that either fails or asks
the host, with the answer negated, and changes nothing. -/
def Tested (cfg : Cfg W V P) (s : Script W V P) : Prop :=
  Guarded cfg s ∧ (∀ i ∈ s.instrs, NoLate i) ∧
    ∀ q t f g, s.instrs[q]? = some (.test t) → s.instrs[q + 2]? = some (.vacation f g) →
      ∀ v : View W V, (t v).world = v.world ∧ (t v).matchv = v.matchv
        ∧ ((t v).res = .bool false ∨ ∃ e, (t v).res = .event e true)

theorem step_queue_cont {cfg : Cfg W V P} {c c' : Ctx W V P}
    (hall : ∀ fr ∈ c.stack, ∀ i ∈ fr.script.instrs, NoLate i) (hq : c.queue = []) (he : step cfg c = .cont c') :
    c'.queue = [] := by
  cases hs : c.stack with
  | nil => simp [step, hs] at he
  | cons fr rest =>
    rcases step_cases (cfg := cfg) hs with ⟨_, i, hi, hfe, ⟨hl', e⟩ | ⟨hl', e⟩⟩ | ⟨_, _, e⟩ | ⟨_, _, e⟩
    · rw [e] at he; simp at he
    · rw [e] at he
      exact exec_queue (c := { c with numInstr := c.numInstr + 1, pos := c.pos + 1 }) hq
        (hall fr (by rw [hs]; simp) i (List.mem_of_getElem? hi)) he
    · rw [e] at he
      unfold leave at he
      rw [hs] at he
      simp only at he
      split at he
      · exact absurd he (finish_not_cont _ _ _)
      · injection he with he; subst he; exact hq
    · rw [e] at he; simp at he

/-- Going on to a vacation, or to the jump before it. -/
theorem cont_near {cfg : Cfg W V P} {w : W} {h c c'}
    (hreg : ∀ n s, cfg.registered n = some s → Tested cfg s)
    (hh : Hist cfg (Ctx.new w) h (.running c)) (hall : AllScripts (Tested cfg) c) (hB : Below c.stack)
    (he : step cfg c = .cont c') : Below c'.stack ∧ ∀ fr rest, c'.stack = fr :: rest →
      (VacAt fr.script c'.pos → (∃ t, fetch c = some (.jz t)) ∧ c.testResult = true ∧ c.stack = fr :: rest
        ∧ c.pos + 1 = c'.pos ∧ c'.view = c.view)
      ∧ (VacAt fr.script (c'.pos + 1) → c'.testResult = false) := by
  obtain ⟨k1, k2⟩ := running_inv hh
  cases hs : c.stack with
  | nil => simp [step, hs] at he
  | cons fr rest =>
    obtain ⟨hG, _, hT⟩ := hall.1 fr (by rw [hs]; simp)
    have away : ∀ c1 : Ctx W V P, (∀ fr rest, c1.stack = fr :: rest → Away fr.script c1.pos) → ∀ fr' rest', c1.stack = fr' :: rest' →
        (VacAt fr'.script c1.pos → (∃ t, fetch c = some (.jz t)) ∧ c.testResult = true ∧ fr :: rest = fr' :: rest'
          ∧ c.pos + 1 = c1.pos ∧ c1.view = c.view)
        ∧ (VacAt fr'.script (c1.pos + 1) → c1.testResult = false) :=
      fun c1 h1 fr' rest' h2 => ⟨fun hv => absurd hv (h1 fr' rest' h2).1, fun hv => absurd hv (h1 fr' rest' h2).2⟩
    have pop : ∀ c1 : Ctx W V P, c1.stack = rest → c1.pos = fr.prevPos → Below c1.stack ∧
        ∀ fr rest, c1.stack = fr :: rest → Away fr.script c1.pos := by
      intro c1 h1 h2
      rw [hs] at hB
      cases rest with
      | nil => exact ⟨by rw [h1]; trivial, by intro fr rest h; rw [h1] at h; simp at h⟩
      | cons g rest =>
        refine ⟨by rw [h1]; exact hB.2, ?_⟩
        intro fr' rest' h3
        rw [h1] at h3
        simp only [List.cons.injEq] at h3
        obtain ⟨rfl, _⟩ := h3
        rw [h2]
        exact hB.1
    rcases step_flow (cfg := cfg) k1.finT (settled_quiet k2) hs with ⟨i, hfe, _, hex, hfl⟩ | ⟨o, c1, e, _⟩ | ⟨_, e⟩
    · have hfe0 := hfe
      rw [fetch_eq hs] at hfe
      rw [he] at hfl
      rcases hfl with ⟨a, _, hpos⟩ | hpu | ⟨_, fr', rest', a, _, rfl⟩
      · refine ⟨by rw [a]; exact hB, ?_⟩
        intro fr' rest' hs'
        rw [a] at hs'
        simp only [hs, List.cons.injEq] at hs'
        obtain ⟨rfl, rfl⟩ := hs'
        rcases hpos with hpos | hpos
        · simp only at hpos
          rw [hpos]
          constructor
          · intro hv
            obtain ⟨f, g, hv⟩ := hv
            obtain ⟨q, t, hq, ht, _, hj, _⟩ := hG _ f g hv
            have hpq : c.pos = q + 1 := by omega
            rw [hpq, hj] at hfe
            injection hfe with hfe
            subst hfe
            rw [he] at hex
            simp only [exec] at hex
            injection hex with hex
            by_cases htr : c.testResult = true
            · rw [if_pos htr] at hex
              refine ⟨⟨_, hfe0⟩, htr, rfl, rfl, ?_⟩
              rw [hex]
              rfl
            · rw [if_neg htr] at hex
              rw [hex] at hpos
              simp only at hpos
              omega
          · intro hv
            obtain ⟨f, g, hv⟩ := hv
            obtain ⟨q, t, hq, ht, hlim, hj, _⟩ := hG _ f g hv
            have hpq : c.pos = q := by omega
            have hres := (hT q t f g ht (by rw [← hq]; exact hv) c.view).2.2
            rw [hpq, ht] at hfe
            injection hfe with hfe
            subst hfe
            rw [he] at hex
            simp only [exec] at hex
            split at hex
            · rename_i b hb
              injection hex with hex
              subst hex
              have hb' : (t c.view).res = .bool b := hb
              rw [hb'] at hres
              rcases hres with hres | ⟨e, hres⟩
              · injection hres
              · cases hres
            · simp at hex
            · simp at hex
        · have := away_target hG hfe hpos
          exact ⟨fun hv => absurd hv this.1, fun hv => absurd hv this.2⟩
      · obtain ⟨_, _, f, n, s, rfl, _, _, _, h5, rfl⟩ := hpu.push
        have hall' := allScripts_push hreg (c := { c with numInstr := c.numInstr + 1, pos := c.pos + 1 }) hall hpu
        refine ⟨?_, away _ ?_⟩
        · simp only [pushScript]
          rw [hs]
          refine ⟨?_, by rw [← hs]; exact hB⟩
          exact away_next hG hfe (by simp) (by simp)
        · intro fr' rest' h3
          have := hall'.1 fr' (by rw [h3]; simp)
          simp only [pushScript, List.cons.injEq] at h3
          obtain ⟨rfl, _⟩ := h3
          exact away_zero this.1
      · simp only [hs, List.cons.injEq] at a
        obtain ⟨rfl, rfl⟩ := a
        exact ⟨(pop _ rfl rfl).1, away _ (pop _ rfl rfl).2⟩
    · rw [e] at he; simp at he
    · rw [e] at he
      injection he with he
      subst he
      exact ⟨(pop _ rfl rfl).1, away _ (pop _ rfl rfl).2⟩

/-- Returning to the host before the jump over a vacation: the test has asked. -/
theorem ret_near {cfg : Cfg W V P} {w : W} {h c o c'}
    (hh : Hist cfg (Ctx.new w) h (.running c)) (hq0 : c.queue = []) (hall : AllScripts (Tested cfg) c) (hB : Below c.stack)
    (he : step cfg c = .ret o c') : (Below c'.stack ∧ ∀ fr rest, c'.stack = fr :: rest →
      ¬ VacAt fr.script c'.pos
      ∧ (VacAt fr.script (c'.pos + 1) → ∃ t e, fetch c = some (.test t) ∧ (t c.view).res = .event e true
        ∧ o = .event (.query e) ∧ c'.queue = [] ∧ c'.testResult = true ∧ c'.view = c.view ∧ c'.stack = c.stack ∧ c'.pos = c.pos + 1))
      ∧ ∀ n op, o = .event (.includeScript n op) → ∀ fr rest, c'.stack = fr :: rest → Away fr.script c'.pos := by
  obtain ⟨k1, k2⟩ := running_inv hh
  cases hs : c.stack with
  | nil =>
    simp only [step, hs] at he
    injection he with h1 h2
    subst h1; subst h2
    exact ⟨⟨hB, by intro fr rest h; rw [hs] at h; simp at h⟩, by simp⟩
  | cons fr rest =>
    obtain ⟨hG, _, hT⟩ := hall.1 fr (by rw [hs]; simp)
    rw [← hs]
    have nil : ∀ c1 : Ctx W V P, c1.stack = [] → Below c1.stack ∧ ∀ fr rest, c1.stack = fr :: rest →
      ¬ VacAt fr.script c1.pos
      ∧ (VacAt fr.script (c1.pos + 1) → ∃ t e, fetch c = some (.test t) ∧ (t c.view).res = .event e true
        ∧ o = .event (.query e) ∧ c1.queue = [] ∧ c1.testResult = true ∧ c1.view = c.view ∧ c1.stack = c.stack ∧ c1.pos = c.pos + 1) :=
      fun c1 h1 => ⟨by rw [h1]; trivial, by intro fr rest h; rw [h1] at h; simp at h⟩
    rcases step_flow (cfg := cfg) k1.finT (settled_quiet k2) hs with ⟨i, hfe, _, hex, hfl⟩ | ⟨o, c1, e, _, b, b', _⟩ | ⟨_, e⟩
    · have hfe0 := hfe
      rw [fetch_eq hs] at hfe
      rw [he] at hfl
      obtain ⟨_, _, ⟨a, hpos, b⟩ | ⟨a, b⟩⟩ := hfl
      · have top : ∀ fr' rest', c'.stack = fr' :: rest' → fr' = fr := by
          intro fr' rest' h3
          rw [a] at h3
          simp only [hs, List.cons.injEq] at h3
          exact h3.1.symm
        refine ⟨⟨by rw [a]; exact hB, ?_⟩, ?_⟩
        · intro fr' rest' hs'
          have := top fr' rest' hs'
          subst this
          rcases hpos with hpos | ⟨hpos, hres⟩
          · simp only at hpos
            rw [hpos]
            constructor
            · intro hv
              obtain ⟨f, g, hv⟩ := hv
              obtain ⟨q, t, hq, ht, _, hj, _⟩ := hG _ f g hv
              have hpq : c.pos = q + 1 := by omega
              rw [hpq, hj] at hfe
              injection hfe with hfe
              subst hfe
              rw [he] at hex
              simp [exec] at hex
            · intro hv
              obtain ⟨f, g, hv⟩ := hv
              obtain ⟨q, t, hq, ht, hlim, hj, _⟩ := hG _ f g hv
              have hpq : c.pos = q := by omega
              have hres := hT q t f g ht (by rw [← hq]; exact hv) c.view
              rw [hpq, ht] at hfe
              injection hfe with hfe
              subst hfe
              rw [he] at hex
              simp only [exec] at hex
              split at hex
              · simp at hex
              · rename_i p isNot hb
                injection hex with hex1 hex
                subst hex
                have hb' : (t c.view).res = .event p isNot := hb
                have hn : isNot = true := by
                  rcases hres.2.2 with hr | ⟨e, hr⟩
                  · rw [hb'] at hr; cases hr
                  · rw [hb'] at hr; injection hr
                subst hn
                refine ⟨t, p, hfe0, hb', hex1, hq0, rfl, ?_, rfl, by simp only⟩
                have e1 : (t c.view).world = c.world := hres.1
                have e2 : (t c.view).matchv = c.matchv := hres.2.1
                show View.mk (t c.view).world c.locals (t c.view).matchv c.part _ c.numOut = c.view
                rw [e1, e2]
                rfl
              · injection hex with _ hex
                subst hex
                rw [(finishLoop_spec ..).1] at hs'
                simp at hs'
          · simp only [Nat.add_sub_cancel] at hpos
            rw [hpos]
            constructor
            · rintro ⟨f, g, hv⟩
              rw [hfe] at hv
              injection hv with hv
              subst hv
              exact hres.elim
            · rintro ⟨f, g, hv⟩
              obtain ⟨q, t, hq, ht, _, hj, _⟩ := hG _ f g hv
              have hpq : c.pos = q + 1 := by omega
              rw [hpq, hj] at hfe
              injection hfe with hfe
              subst hfe
              exact hres.elim
        · intro n op ho fr' rest' hs'
          have := top fr' rest' hs'
          subst this
          obtain ⟨⟨_, _, f, hi, _⟩, _, hp'⟩ := b n op ho
          simp only at hp'
          rw [hp']
          subst hi
          exact away_next hG hfe (by simp) (by simp)
      · exact ⟨nil _ a, fun n op ho => absurd ho (b n op)⟩
    · rw [e] at he
      injection he with h1 h2
      subst h1; subst h2
      refine ⟨?_, fun n op ho => absurd ho (b' n op)⟩
      rcases b with b | ⟨rfl, hlen⟩
      · exact nil _ b
      · refine ⟨hB, ?_⟩
        intro fr' rest' h3
        rw [hs] at h3
        simp only [List.cons.injEq] at h3
        obtain ⟨rfl, _⟩ := h3
        constructor
        · rintro ⟨f, g, hv⟩
          rw [List.getElem?_eq_none (by omega)] at hv
          simp at hv
        · rintro ⟨f, g, hv⟩
          rw [List.getElem?_eq_none (by omega)] at hv
          simp at hv
    · rw [e] at he; simp at he

/-- While the host is to act, no script is at a vacation; one that is at the jump before a vacation has
nothing else to report. -/
def Paused (c : Ctx W V P) : Prop :=
  Below c.stack ∧ ∀ fr rest, c.stack = fr :: rest →
    ¬ VacAt fr.script c.pos ∧ (VacAt fr.script (c.pos + 1) → c.queue = [])

theorem paused_session {cfg : Cfg W V P} {w : W} {h m}
    (hreg : ∀ n s, cfg.registered n = some s → Tested cfg s)
    (hh : Hist cfg (Ctx.new w) h m) (hp : h ≠ [] → Protocol h)
    (hhost : ∀ s ∈ scriptsOf h, Tested cfg s) :
    match m with
    | .running c => Below c.stack
    | .waiting c => Paused c ∧ (Asked h → ∀ fr rest, c.stack = fr :: rest → Away fr.script c.pos) := by
  have late : ∀ s, Tested cfg s → ∀ i ∈ s.instrs, NoLate i := fun s hs => hs.2.1
  -- a pushed script starts away from its vacations
  have push : ∀ (c : Ctx W V P) (s : Script W V P), Tested cfg s →
      ∀ fr rest, (pushScript cfg c s).stack = fr :: rest → Away fr.script (pushScript cfg c s).pos := by
    intro c s hs fr rest h
    simp only [pushScript, List.cons.injEq] at h
    obtain ⟨rfl, _⟩ := h
    exact away_zero hs.1
  have key : match m, hh with
      | .running c, _ => Below c.stack ∧ c.queue = []
      | .waiting c, _ => Paused c ∧ (∀ e ∈ c.queue, notInclude e) ∧
          (Asked h → ∀ fr rest, c.stack = fr :: rest → Away fr.script c.pos) := by
    refine session_rule (cfg := cfg) (w := w) (Q := Tested cfg) (Ir := fun c => Below c.stack ∧ c.queue = []) (Iw := Paused)
      (A := fun c => ∀ fr rest, c.stack = fr :: rest → Away fr.script c.pos) hreg ?_ ?_ ?_ ?_ ?_ ?_ ?_ ?_ hh hp hhost
    · exact ⟨trivial, by intro fr rest h; simp [Ctx.new] at h⟩
    · intro n s _ hs
      simp only [applyInput]
      split
      · refine ⟨trivial, fun fr rest h => ?_⟩
        have := push _ s hs fr rest h
        exact ⟨this.1, fun hv => absurd hv this.2⟩
      · exact ⟨trivial, by intro fr rest h; simp [Ctx.new] at h⟩
    · intro c i hi hc
      cases i with
      | script n s => exact absurd rfl (hi n s)
      | _ => exact hc
    · intro c n s hc ha hs
      simp only [applyInput]
      split
      · refine ⟨?_, fun fr rest h => ?_⟩
        · simp only [pushScript]
          cases hst : c.stack with
          | nil => trivial
          | cons g rest => exact ⟨ha g rest hst, by rw [← hst]; exact hc.1⟩
        · have := push _ s hs fr rest h
          exact ⟨this.1, fun hv => absurd hv this.2⟩
      · exact hc
    · intro c e q hq hc
      refine ⟨hc.1, fun fr rest h => ⟨(hc.2 fr rest h).1, fun hv => ?_⟩⟩
      have := (hc.2 fr rest h).2 hv
      rw [hq] at this
      cases this
    · exact fun c hq hc => ⟨hc.1, hq⟩
    · intro h c c' hh hall hc he
      refine ⟨(cont_near hreg hh hall hc.1 he).1, ?_⟩
      exact (step_queue_cont (cfg := cfg) (fun fr hfr => (hall.1 fr hfr).2.1) hc.2 he)
    · intro h c o c' hh hall hc he
      obtain ⟨⟨h1, h2⟩, h3⟩ := ret_near hh hc.2 hall hc.1 he
      refine ⟨⟨h1, fun fr rest hs => ⟨(h2 fr rest hs).1, fun hv => ?_⟩⟩, h3⟩
      obtain ⟨_, _, _, _, _, hq, _⟩ := (h2 fr rest hs).2 hv
      exact hq
  cases m with
  | running c => exact key.1
  | waiting c => exact ⟨key.1, key.2.2⟩

theorem hist_nil' {cfg : Cfg W V P} {c0 c : Ctx W V P} (h : Hist cfg c0 [] (.running c)) : False := by
  generalize hk : ([] : List (Label W V P)) = k at h
  generalize hm : Mode.running c = m at h
  cases h with
  | start => cases hm
  | _ => simp at hk

/-- After the input of the host no script is at a vacation; one that is at the jump before a vacation
was there before. -/
theorem input_near {cfg : Cfg W V P} {w : W} {h c i}
    (hreg : ∀ n s, cfg.registered n = some s → Tested cfg s)
    (hh : Hist cfg (Ctx.new w) h (.waiting c)) (hp : Protocol (h ++ [.input i]))
    (hhost : ∀ s ∈ scriptsOf (h ++ [.input i]), Tested cfg s) {fr rest}
    (hs : (applyInput cfg c i).stack = fr :: rest) :
    ¬ VacAt fr.script (applyInput cfg c i).pos
      ∧ (VacAt fr.script ((applyInput cfg c i).pos + 1) →
          (∀ n s, i ≠ .script n s) ∧ c.stack = fr :: rest ∧ VacAt fr.script (c.pos + 1) ∧ c.queue = []) := by
  have hpre : h ≠ [] → Protocol h := fun hne => protocol_prefix hp hne
  have hsc : ∀ s ∈ scriptsOf h, Tested cfg s := fun s hs => hhost s (by rw [scriptsOf_append]; simp [hs])
  obtain ⟨⟨h1, h2⟩, h3⟩ := paused_session hreg hh hpre hsc
  by_cases hi : ∃ n s, i = .script n s
  · obtain ⟨n, s, rfl⟩ := hi
    have hT := hhost s (by rw [scriptsOf_append]; simp [scriptsOf])
    by_cases hacc : s.numMatchVars ≤ maxMatchVars ∧ s.numVars ≤ maxLocalVars
    · simp only [applyInput, if_pos hacc] at hs ⊢
      simp only [pushScript, List.cons.injEq] at hs ⊢
      obtain ⟨rfl, _⟩ := hs
      have := away_zero hT.1
      exact ⟨this.1, fun hv => absurd hv this.2⟩
    · simp only [applyInput, if_neg hacc] at hs ⊢
      rcases protocol_inv hp with ⟨rfl, _⟩ | ⟨_, hl⟩
      · have := hist_nil hh
        subst this
        simp [Ctx.new] at hs
      · have := h3 (hl n s rfl) fr rest hs
        exact ⟨this.1, fun hv => absurd hv this.2⟩
  · have hi' : ∀ n s, i ≠ .script n s := fun n s e => hi ⟨n, s, e⟩
    have e : (applyInput cfg c i).stack = c.stack ∧ (applyInput cfg c i).pos = c.pos := by
      cases i with
      | script n s => exact absurd rfl (hi' n s)
      | _ => exact ⟨rfl, rfl⟩
    rw [e.1] at hs
    rw [e.2]
    exact ⟨(h2 fr rest hs).1, fun hv => ⟨hi', hs, hv, (h2 fr rest hs).2 hv⟩⟩

/-- **C41 (3).** Whenever a vacation action is executed, the last thing that happened is this: the test
of the vacation was executed and asked the host whether it had replied before, the host answered, and
the jump over the vacation was not taken.  The answer was "no", and nothing has changed since the
question was asked. -/
theorem vacation_answered_partial {cfg : Cfg W V P} {w : W} {h c f g}
    (hreg : ∀ n s, cfg.registered n = some s → Tested cfg s)
    (hh : Hist cfg (Ctx.new w) h (.running c)) (hp : Protocol h)
    (hhost : ∀ s ∈ scriptsOf h, Tested cfg s) (hf : fetch c = some (.vacation f g)) :
    ∃ h0 c0 c1 t e i, h = h0 ++ [.pass c0, .output (.event (.query e)), .input i, .pass c1]
      ∧ Hist cfg (Ctx.new w) h0 (.running c0) ∧ c.stack = c0.stack ∧ c.pos = c0.pos + 2 ∧ fetch c0 = some (.test t) ∧ (t c0.view).res = .event e true
      ∧ (i = .false ∧ c.view = c0.view ∨ ∃ v, i = .fncResult v) := by
  have vacAt : ∀ {c : Ctx W V P} {fr rest}, c.stack = fr :: rest → fetch c = some (.vacation f g) → VacAt fr.script c.pos :=
    fun hs hf => ⟨f, g, by rw [← fetch_eq hs]; exact hf⟩
  obtain ⟨fr, rest, hs⟩ := stack_of_fetch hf
  have hv := vacAt hs hf
  generalize hm : Mode.running c = m at hh
  cases hh with
  | start => simp at hm
  | feedRet => simp at hm
  | passRet => simp at hm
  | @feedGo h c0 i c1 hh he =>
    injection hm with hm
    subst hm
    obtain ⟨rfl, _, _⟩ := enter_cont he
    exact absurd hv (input_near hreg hh hp hhost hs).1
  | @pass h c1 c' hh he =>
    injection hm with hm
    subst hm
    have hne : h ≠ [] := by
      rintro rfl
      exact hist_nil' hh
    have hp1 := protocol_prefix hp hne
    have hsc1 : ∀ s ∈ scriptsOf h, Tested cfg s := fun s hs => hhost s (by rw [scriptsOf_append]; simp [hs])
    have hall1 : AllScripts (Tested cfg) c1 := all_scripts hreg hh hsc1
    obtain ⟨_, hn⟩ := cont_near hreg hh hall1 (paused_session hreg hh (fun _ => hp1) hsc1) he
    obtain ⟨_, htr, hs1, hpos1, hview⟩ := (hn fr rest hs).1 hv
    have hv1 : VacAt fr.script (c1.pos + 1) := by rw [hpos1]; exact hv
    generalize hm : Mode.running c1 = m at hh
    cases hh with
    | start => simp at hm
    | feedRet => simp at hm
    | passRet => simp at hm
    | @pass h c0 c' hh he =>
      injection hm with hm
      subst hm
      have hsc0 : ∀ s ∈ scriptsOf h, Tested cfg s := fun s hs => hsc1 s (by rw [scriptsOf_append]; simp [hs])
      have hne : h ≠ [] := by
        rintro rfl
        exact hist_nil' hh
      have hB := paused_session hreg hh (fun _ => protocol_prefix hp1 hne) hsc0
      have := ((cont_near hreg hh (all_scripts hreg hh hsc0) hB he).2 fr rest hs1).2 hv1
      rw [htr] at this
      cases this
    | @feedGo h cw i c' hh he =>
      injection hm with hm
      subst hm
      obtain ⟨rfl, _, _⟩ := enter_cont he
      obtain ⟨hi, hsw, hvw, hqw⟩ := (input_near hreg hh hp1 hsc1 hs1).2 hv1
      have hscw : ∀ s ∈ scriptsOf h, Tested cfg s := fun s hs => hsc1 s (by rw [scriptsOf_append]; simp [hs])
      generalize hm : Mode.waiting cw = m at hh
      cases hh with
      | feedGo => simp at hm
      | pass => simp at hm
      | start =>
        injection hm with hm
        subst hm
        simp [Ctx.new] at hsw
      | @feedRet h c0 j o c' hh he =>
        injection hm with hm
        subst hm
        have hpj : Protocol (h ++ [.input j]) := by
          have := protocol_prefix hp1 (by simp)
          rw [show [Label.input j, Label.output o] = [Label.input j] ++ [Label.output o] from rfl, ← List.append_assoc] at this
          exact protocol_prefix this (by simp)
        have hscj : ∀ s ∈ scriptsOf (h ++ [.input j]), Tested cfg s := by
          intro s hs
          apply hscw s
          rw [show [Label.input j, Label.output o] = [Label.input j] ++ [Label.output o] from rfl, ← List.append_assoc, scriptsOf_append]
          exact List.mem_append_left _ hs
        rcases enter_ret he with ⟨e, q, hq, _, rfl⟩ | ⟨_, hs0, _, rfl⟩
        · obtain ⟨hj, _, _, hq0⟩ := (input_near hreg hh hpj hscj hsw).2 hvw
          have : (applyInput cfg c0 j).queue = c0.queue := by
            cases j with
            | script n s => exact absurd rfl (hj n s)
            | _ => rfl
          rw [this, hq0] at hq
          cases hq
        · rw [hs0] at hsw
          cases hsw
      | @passRet h c0 o c' hh he =>
        injection hm with hm
        subst hm
        have hsc0 : ∀ s ∈ scriptsOf h, Tested cfg s := fun s hs => hscw s (by rw [scriptsOf_append]; simp [hs])
        have hne : h ≠ [] := by
          rintro rfl
          exact hist_nil' hh
        have hB := paused_session hreg hh (fun _ => protocol_prefix (protocol_prefix hp1 (by simp)) hne) hsc0
        have hq := running_queue hh (fun n s h => (hreg n s h).2.1) (fun s h => (hsc0 s h).2.1)
        obtain ⟨t, e, hft, hres, rfl, _, htw, hvw', hst0, hpos0⟩ := ((ret_near hh hq (all_scripts hreg hh hsc0) hB he).1.2 fr rest hsw).2 hvw
        refine ⟨h, c0, applyInput cfg cw i, t, e, i, ?_, hh, ?_, ?_, hft, hres, ?_⟩
        · simp
        · rw [hs, ← hsw, hst0]
        · rw [← hpos1]
          have : (applyInput cfg cw i).pos = cw.pos := by
            cases i with
            | script n s => exact absurd rfl (hi n s)
            | _ => rfl
          rw [this, hpos0]
        · cases i with
          | script n s => exact absurd rfl (hi n s)
          | fncResult v => exact Or.inr ⟨v, rfl⟩
          | true => simp [applyInput, htw] at htr
          | false =>
            refine Or.inl ⟨rfl, ?_⟩
            rw [hview, ← hvw']
            rfl

/-! ## With the conditions of the vacation test -/

/-- The test of a vacation, as an instruction: `TestVacation::exec`, `src/runtime/actions/action_vacation.rs:27-159`,
called from `Instruction::Test`, `src/runtime/eval.rs`/`src/runtime/context.rs`.  `ctx` reads what the test looks at
from the state and `args` evaluates the arguments. -/
def vacTest {F : Type} (x : Tests.Ext F) (ctx : View W V → Vacation.Ctx F) (args : View W V → Vacation.Args)
    (ask : Vacation.Query → P) : View W V → TestOut W V P :=
  fun v => ⟨match Vacation.test x (ctx v) (args v) with
    | some (q, isNot) => .event (ask q) isNot
    | none => .bool false, v.matchv, v.world, false⟩

/-- What the compiler makes of `vacation` (`src/compiler/grammar/actions/action_vacation.rs:115-137`): the
test, a jump over the action, and the action; no jump leads between them.  No instruction reports anything
after the host is asked (`NoLate`). -/
def Vacations {F : Type} (x : Tests.Ext F) (ctx : View W V → Vacation.Ctx F) (ask : Vacation.Query → P)
    (s : Script W V P) : Prop :=
  (∀ i ∈ s.instrs, NoLate i) ∧ ∀ p f g, s.instrs[p]? = some (.vacation f g) →
    ∃ q args, p = q + 2 ∧ s.instrs[q]? = some (.test (vacTest x ctx args ask))
      ∧ s.instrs[q + 1]? = some (.jz (q + 3))
      ∧ ∀ i ∈ s.instrs, ∀ t, target i = some t → t ≠ q + 1 ∧ t ≠ q + 2

theorem vacations_tested {F : Type} {x : Tests.Ext F} {ctx : View W V → Vacation.Ctx F} {ask : Vacation.Query → P}
    (hx : Vacation.Letters x) {cfg : Cfg W V P} (hout : ∀ v, (ctx v).numOut = v.numOut ∧ (ctx v).maxOut = cfg.maxOut)
    {s : Script W V P} (h : Vacations x ctx ask s) : Tested cfg s := by
  refine ⟨?_, h.1, ?_⟩
  · intro p f g hv
    obtain ⟨q, args, h1, h2, h3, h4⟩ := h.2 p f g hv
    refine ⟨q, _, h1, h2, ?_, h3, h4⟩
    intro v hv
    have : Vacation.test x (ctx v) (args v) = none := by
      unfold Vacation.test
      rw [(hout v).1, (hout v).2, if_pos hv]
    simp only [vacTest, this]
  · intro q t f g ht hv v
    obtain ⟨q', args, h1, h2, _⟩ := h.2 _ f g hv
    have : q' = q := by omega
    subst this
    rw [h2] at ht
    injection ht with ht
    injection ht with ht
    subst ht
    refine ⟨rfl, rfl, ?_⟩
    simp only [vacTest]
    cases ht : Vacation.test x (ctx v) (args v) with
    | none => exact Or.inl rfl
    | some r =>
      obtain ⟨q, isNot⟩ := r
      obtain ⟨_, _, _, h⟩ := (Vacation.test_vacation hx _ _ q isNot).mp ht
      subst h
      exact Or.inr ⟨_, rfl⟩

/-- **C41.** Whenever a vacation action is executed, in any session in which the host follows the protocol, all
the conditions for a reply were met by the message, the envelope and the arguments when its test was executed;
the host was then asked whether the sender had already had that reply, and answered that this was not so.
Partial: a host that answers a question by a function result (which no question asks for) is believed to
have said no, see `odd_answer_replies`. -/
theorem vacation_conditions_partial {F : Type} {x : Tests.Ext F} {ctx : View W V → Vacation.Ctx F}
    {ask : Vacation.Query → P} (hx : Vacation.Letters x) {cfg : Cfg W V P}
    (hout : ∀ v, (ctx v).numOut = v.numOut ∧ (ctx v).maxOut = cfg.maxOut) {w : W} {h c f g}
    (hreg : ∀ n s, cfg.registered n = some s → Vacations x ctx ask s)
    (hh : Hist cfg (Ctx.new w) h (.running c)) (hp : Protocol h)
    (hhost : ∀ s ∈ scriptsOf h, Vacations x ctx ask s) (hf : fetch c = some (.vacation f g)) :
    ∃ h0 c0 c1, ∃ args : View W V → Vacation.Args, ∃ sndr i,
      h = h0 ++ [.pass c0, .output (.event (.query (ask (Vacation.question (ctx c0.view) (args c0.view) sndr)))),
        .input i, .pass c1]
      ∧ Vacation.MayReply x (ctx c0.view) (args c0.view) sndr
      ∧ (i = .false ∧ c.view = c0.view ∨ ∃ v, i = .fncResult v) := by
  have hreg' : ∀ n s, cfg.registered n = some s → Tested cfg s := fun n s h => vacations_tested hx hout (hreg n s h)
  have hhost' : ∀ s ∈ scriptsOf h, Tested cfg s := fun s h => vacations_tested hx hout (hhost s h)
  obtain ⟨h0, c0, c1, t, e, i, rfl, hh0, hst, hpos, hft, hres, hi⟩ := vacation_answered_partial hreg' hh hp hhost' hf
  have hsc0 : ∀ s ∈ scriptsOf h0, Vacations x ctx ask s := fun s hs => hhost s (by rw [scriptsOf_append]; simp [hs])
  obtain ⟨fr, rest, hs⟩ := stack_of_fetch hft
  have hV := (all_scripts hreg hh0 hsc0).1 fr (by simp only [modeCtx]; rw [hs]; simp)
  rw [fetch_eq (hst.trans hs), hpos] at hf
  rw [fetch_eq hs] at hft
  obtain ⟨q, args, h1, h2, _⟩ := hV.2 _ f g hf
  have : q = c0.pos := by omega
  subst this
  rw [h2] at hft
  injection hft with hft
  injection hft with hft
  subst hft
  simp only [vacTest] at hres
  cases ht : Vacation.test x (ctx c0.view) (args c0.view) with
  | none => rw [ht] at hres; cases hres
  | some r =>
    obtain ⟨q, isNot⟩ := r
    rw [ht] at hres
    injection hres with hres _
    subst hres
    obtain ⟨v, hm, rfl, _⟩ := (Vacation.test_vacation hx _ _ q isNot).mp ht
    exact ⟨h0, c0, c1, args, v, i, rfl, hm, hi⟩

/-- The compiled form of a vacation with which the examples below are built. -/
def vacationI : List DInstr := [
    .test fun v => ⟨if v.numOut < 3 then .event "seen before?" true else .bool false, v.matchv, v.world, false⟩, .jz 3,
    .vacation (fun _ => ("on vacation", "a@b.c")) none]

/-- Non-vacuity: this script meets the hypothesis. -/
example : Tested demo (script vacationI) := by
  refine ⟨?_, ?_, ?_⟩
  · intro p f g hv
    rcases p with _ | _ | _ | p <;> simp [script, vacationI] at hv
    refine ⟨0, _, rfl, rfl, ?_, rfl, ?_⟩
    · intro v hv
      simp only [demo] at hv
      rw [if_neg (by omega)]
    · intro i hi x hx
      simp only [script, vacationI, List.mem_cons, List.not_mem_nil, or_false] at hi
      rcases hi with rfl | rfl | rfl <;> simp [target] at hx
      omega
  · intro i hi
    simp only [script, vacationI, List.mem_cons, List.not_mem_nil, or_false] at hi
    rcases hi with rfl | rfl | rfl <;> simp [NoLate]
  · intro q t f g h1 h2 v
    rcases q with _ | q <;> simp [script, vacationI] at h1 h2
    subst h1
    refine ⟨rfl, rfl, ?_⟩
    by_cases h : v.numOut < 3
    · exact Or.inr ⟨_, if_pos h⟩
    · exact Or.inl (if_neg h)

/-- The same with the conditions of the vacation test, for the message of `Vacation.exCtx`. -/
def vacationE : List DInstr := [
    .test (vacTest Tests.exExt (fun v => { Vacation.exCtx "Hi".toList with numOut := v.numOut }) (fun _ => Vacation.exArgs)
      fun q => String.ofList q.id), .jz 3, .vacation (fun _ => ("on vacation", "a@b.c")) none]

example : Vacations Tests.exExt (fun v => { Vacation.exCtx "Hi".toList with numOut := v.numOut })
    (fun q => String.ofList q.id) (script vacationE) := by
  refine ⟨?_, ?_⟩
  · intro i hi
    simp only [script, vacationE, List.mem_cons, List.not_mem_nil, or_false] at hi
    rcases hi with rfl | rfl | rfl <;> simp [NoLate]
  · intro p f g hv
    rcases p with _ | _ | _ | p <;> simp [script, vacationE] at hv
    refine ⟨0, fun _ => Vacation.exArgs, rfl, rfl, rfl, ?_⟩
    intro i hi x hx
    simp only [script, vacationE, List.mem_cons, List.not_mem_nil, or_false] at hi
    rcases hi with rfl | rfl | rfl <;> simp [target] at hx
    omega

example : (sees [start vacationE, .false, .true, .true, .true]).map (·.take 2)
    = some [.event (.query "_va@xaway"), .event (.created 1 "on vacation")] := by
  decide

/-- The reply is sent if the host says no, and is not sent if it says yes. -/
example : (sees [start vacationI, .false, .true, .true, .true]).map (·.any fun o => o matches .event (.created ..)) = some true
    ∧ (sees [start vacationI, .true, .true, .true, .true]).map (·.any fun o => o matches .event (.created ..)) = some false := by
  decide

/-- A host that answers with the result of a function is taken to have said no. -/
theorem odd_answer_replies :
    (sees [start vacationI, .fncResult 0, .true, .true, .true]).map (·.any fun o => o matches .event (.created ..)) = some true := by
  decide

end Sieve.Vm
