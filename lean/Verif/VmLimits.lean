import Verif.VmFlow

/-!
# Includes (C12) and outgoing messages (C13)
-/

namespace Sieve.Vm

variable {W V P : Type}

/-! ## C12: nesting of includes -/

/-- **C12 (1).** In every session that follows the protocol, the number of active scripts never
exceeds `max_nested_includes` (or one, for the outermost script). -/
theorem include_depth {cfg : Cfg W V P} {w : W} {h m} (hh : Hist cfg (Ctx.new w) h m)
    (hp : h ≠ [] → Protocol h) : (modeCtx m).stack.length ≤ max 1 cfg.maxIncludes := by
  have := session_rule (cfg := cfg) (w := w) (Q := fun _ => True)
    (Ir := fun c => c.stack.length ≤ max 1 cfg.maxIncludes)
    (Iw := fun c => c.stack.length ≤ max 1 cfg.maxIncludes)
    (A := fun c => c.stack.length < cfg.maxIncludes)
    (fun _ _ _ => trivial)
    (by simp [Ctx.new])
    (by
      intro n s _ _
      simp only [applyInput]
      split <;> simp [pushScript, Ctx.new])
    (by
      intro c i hi hc
      cases i with
      | script n s => exact absurd rfl (hi n s)
      | _ => exact hc)
    (by
      intro c n s hc ha _
      simp only [applyInput]
      split
      · simp only [pushScript, List.length_cons]
        omega
      · exact hc)
    (fun _ _ _ _ h => h)
    (fun _ _ h => h)
    (by
      intro h c c' hh _ hI he
      obtain ⟨k1, k2⟩ := running_inv hh
      cases hs : c.stack with
      | nil => simp [step, hs] at he
      | cons fr rest =>
        rcases step_flow (cfg := cfg) k1.finT (settled_quiet k2) hs with ⟨i, _, _, _, hfl⟩ | ⟨o, c1, e, _⟩ | ⟨_, e⟩
        · rw [he] at hfl
          rcases hfl with ⟨a, _⟩ | hpu | ⟨_, fr', rest', a, _, rfl⟩
          · rw [a]; exact hI
          · obtain ⟨_, _, f, n, s, _, _, _, _, h5, rfl⟩ := hpu.push
            simp only [pushScript, List.length_cons] at h5 ⊢
            omega
          · simp only at a ⊢
            rw [a] at hI
            simp only [List.length_cons] at hI
            omega
        · rw [e] at he; simp at he
        · rw [e] at he
          injection he with he
          subst he
          rw [hs] at hI
          simp only [List.length_cons] at hI ⊢
          omega)
    (by
      intro h c o c' hh _ hI he
      obtain ⟨k1, k2⟩ := running_inv hh
      cases hs : c.stack with
      | nil =>
        simp only [step, hs] at he
        injection he with h1 h2
        subst h1; subst h2
        exact ⟨hI, by simp⟩
      | cons fr rest =>
        rcases step_flow (cfg := cfg) k1.finT (settled_quiet k2) hs with ⟨i, _, _, _, hfl⟩ | ⟨o, c1, e, _, b, b', _⟩ | ⟨_, e⟩
        · rw [he] at hfl
          obtain ⟨_, _, ⟨a, _, b⟩ | ⟨a, b⟩⟩ := hfl
          · refine ⟨by rw [a]; exact hI, ?_⟩
            intro n op ho
            rw [a]
            exact (b n op ho).2.1
          · exact ⟨by rw [a]; simp, fun n op ho => absurd ho (b n op)⟩
        · rw [e] at he
          injection he with h1 h2
          subst h1; subst h2
          refine ⟨?_, fun n op ho => absurd ho (b' n op)⟩
          rcases b with b | ⟨rfl, _⟩
          · rw [b]; simp
          · exact hI
        · rw [e] at he; simp at he)
    hh hp (fun _ _ => trivial)
  cases m with
  | running c => exact this
  | waiting c => exact this.1

/-- **C12 (2).** An include in a state where `max_nested_includes` scripts are active (of a script
that `:once` does not suppress) is reported as `TooManyIncludes`. -/
theorem too_deep_reported {cfg : Cfg W V P} {c : Ctx W V P} {once op f n}
    (hf : fetch c = some (.include once op f)) (hl : c.numInstr < cfg.cpuLimit)
    (hd : cfg.maxIncludes ≤ c.stack.length) (hn : f c.view = some n)
    (ho : once = false ∨ lookup c.cache n = none) :
    ∃ c', step cfg c = .ret (.error .tooManyIncludes) c' ∧ c'.stack = [] := by
  obtain ⟨fr, rest, hs⟩ := stack_of_fetch hf
  rcases step_cases (cfg := cfg) hs with ⟨_, i, hi, hfe, ⟨hl', e⟩ | ⟨hl', e⟩⟩ | ⟨hfn, _⟩ | ⟨hfn, _⟩
  · omega
  · rw [hf] at hfe
    injection hfe with hfe
    subst hfe
    rw [e]
    have h1 : (!once || (lookup c.cache n).isNone) = true := by
      rcases ho with rfl | ho
      · rfl
      · simp [ho]
    have h2 : execInclude cfg { c with numInstr := c.numInstr + 1, pos := c.pos + 1 } once op f = .error := by
      unfold execInclude
      have hn' : f ({ c with numInstr := c.numInstr + 1, pos := c.pos + 1 } : Ctx W V P).view = some n := hn
      rw [hn']
      simp only
      rw [if_pos h1, if_neg (by omega)]
    simp only [exec, h2]
    exact ⟨_, rfl, (finishLoop_spec ..).1⟩
  · rw [hf] at hfn; simp at hfn
  · rw [hf] at hfn; simp at hfn

/-- Scripts loaded by the host are remembered. -/
theorem loaded_cached {cfg : Cfg W V P} {w : W} {h m} (hh : Hist cfg (Ctx.new w) h m) :
    ∀ n s, .input (.script n s) ∈ h → Accepted s → ∃ s', lookup (modeCtx m).cache n = some s' := by
  have inp : ∀ (c : Ctx W V P) i n, (∃ s', lookup c.cache n = some s') →
      ∃ s', lookup (applyInput cfg c i).cache n = some s' := by
    intro c i n h1
    cases i with
    | script n' s =>
      simp only [applyInput]
      split
      · simp only [pushScript, lookup, List.find?_cons]
        by_cases hn : n' = n
        · simp [hn]
        · simpa [hn, lookup] using h1
      · exact h1
    | _ => exact h1
  have new : ∀ (c : Ctx W V P) n s, Accepted s →
      ∃ s', lookup (applyInput cfg c (.script n s)).cache n = some s' := by
    intro c n s hs
    refine ⟨s, ?_⟩
    simp only [applyInput]
    rw [if_pos (show s.numMatchVars ≤ maxMatchVars ∧ s.numVars ≤ maxLocalVars from hs)]
    simp [pushScript, lookup]
  have st : ∀ h c, Hist cfg (Ctx.new w) h (.running c) →
      match step cfg c with
      | .cont c' => c'.cache = c.cache
      | .ret _ c' => c'.cache = c.cache := by
    intro h c hh
    obtain ⟨k1, k2⟩ := running_inv hh
    cases hs : c.stack with
    | nil => simp [step, hs]
    | cons fr rest =>
      rcases step_flow (cfg := cfg) k1.finT (settled_quiet k2) hs with ⟨i, _, _, _, hfl⟩ | ⟨o, c1, e, b, _⟩ | ⟨_, e⟩
      · split
        · rename_i c' he
          rw [he] at hfl
          rcases hfl with ⟨_, a, _⟩ | hpu | ⟨_, fr', rest', a, _, rfl⟩
          · exact a
          · obtain ⟨_, _, f, n, s, _, _, _, _, h5, rfl⟩ := hpu.push
            rfl
          · rfl
        · rename_i o c' he
          rw [he] at hfl
          exact hfl.1
      · rw [e]; exact b
      · rw [e]
  induction hh with
  | start => intro n s h; simp at h
  | @feedRet h c i o c' hh he ih =>
    intro n s hm hs
    have hc : c'.cache = (applyInput cfg c i).cache := by
      rcases enter_ret he with ⟨ev, q, hq, rfl, rfl⟩ | ⟨hq, _, rfl, rfl⟩ <;> rfl
    simp only [modeCtx, hc]
    simp only [List.mem_append, List.mem_cons, List.not_mem_nil, or_false, reduceCtorEq] at hm
    rcases hm with hm | hm
    · exact inp _ _ _ (ih n s hm hs)
    · injection hm with hm
      subst hm
      exact new c n s hs
  | @feedGo h c i c' hh he ih =>
    intro n s hm hs
    obtain ⟨rfl, _⟩ := enter_cont he
    simp only [modeCtx]
    simp only [List.mem_append, List.mem_cons, List.not_mem_nil, or_false] at hm
    rcases hm with hm | hm
    · exact inp _ _ _ (ih n s hm hs)
    · injection hm with hm
      subst hm
      exact new c n s hs
  | @pass h c c' hh he ih =>
    intro n s hm hs
    have := st h c hh
    rw [he] at this
    simp only at this
    simp only [modeCtx, this]
    exact ih n s (by simpa using hm) hs
  | @passRet h c o c' hh he ih =>
    intro n s hm hs
    have := st h c hh
    rw [he] at this
    simp only at this
    simp only [modeCtx, this]
    exact ih n s (by simpa using hm) hs

/-- **C12 (3).** An `include :once` of a script that the host has already handed over in this
session does nothing: the interpreter goes on with the next instruction of the same script, in the
same state.
The full claim would hold for registered scripts too (`once_registered_runs_twice`). -/
theorem once_honoured_partial {cfg : Cfg W V P} {w : W} {h c op f n s}
    (hh : Hist cfg (Ctx.new w) h (.running c)) (hf : fetch c = some (.include true op f))
    (hl : c.numInstr < cfg.cpuLimit) (hn : f c.view = some n)
    (hs : .input (.script n s) ∈ h) (ha : Accepted s) :
    step cfg c = .cont { c with numInstr := c.numInstr + 1, pos := c.pos + 1 } := by
  obtain ⟨s', hc⟩ := loaded_cached hh n s hs ha
  simp only [modeCtx] at hc
  obtain ⟨fr, rest, hst⟩ := stack_of_fetch hf
  rcases step_cases (cfg := cfg) hst with ⟨_, i, hi, hfe, ⟨hl', e⟩ | ⟨hl', e⟩⟩ | ⟨hfn, _⟩ | ⟨hfn, _⟩
  · omega
  · rw [hf] at hfe
    injection hfe with hfe
    subst hfe
    rw [e]
    have h2 : execInclude cfg { c with numInstr := c.numInstr + 1, pos := c.pos + 1 } true op f = .none := by
      unfold execInclude
      have hn' : f ({ c with numInstr := c.numInstr + 1, pos := c.pos + 1 } : Ctx W V P).view = some n := hn
      rw [hn']
      simp [hc]
    simp only [exec, h2]
  · rw [hf] at hfn; simp at hfn
  · rw [hf] at hfn; simp at hfn

def incl (once : Bool) (s : String) : DInstr := .include once false (fun _ => some ⟨false, s⟩)

/-- A second `include :once` does nothing. -/
example : sees [start [incl false "x", incl true "x", fileTo "B" true],
      .script ⟨false, "x"⟩ (script [fileTo "A" true]), .true, .true, .true]
    = some [.event (.includeScript ⟨false, "x"⟩ false), .event (.fileInto "A" [] 0),
        .event (.fileInto "B" [] 0), .event (.keep [] 0), .none] := by decide

/-- `:once` has no effect on scripts registered in the run time: `lib`, which files a copy, is run
twice. -/
theorem once_registered_runs_twice :
    sees [start [incl true "lib", incl true "lib"], .true, .true, .true]
    = some [.event (.fileInto "Lib" [] 0), .event (.fileInto "Lib" [] 0), .event (.keep [] 0),
        .none] := by decide

/-! ## C13: redirects and outgoing messages -/

/-- **C13 (1).** However the scripts are built and whatever the host does, at most `max_redirects`
messages are sent by `redirect`. -/
theorem redirect_limit {cfg : Cfg W V P} {w : W} {h m} (hh : Hist cfg (Ctx.new w) h m) :
    redirects (events h) ≤ cfg.maxRedirects := by
  have := invariant (G := False) hh (fun h => h.elim)
  cases m with
  | running c =>
    have := this.1.red
    omega
  | waiting c =>
    have := Inv.red this
    rw [redirects_append] at this
    omega

/-- Does a redirect send a message in this state? -/
def Redirects (cfg : Cfg W V P) (c : Ctx W V P) (list : Bool) (addr : View W V → Option P) : Prop :=
  ∃ a, addr c.view = some a ∧ c.numRedirects < cfg.maxRedirects ∧ c.numOut < cfg.maxOut
    ∧ cfg.received c.world < cfg.maxReceived ∧ (list = true ∨ cfg.own c.world a = false)

/-- **C13 (2).** A redirect beyond one of the limits, of a message with too many `Received` headers,
or to the user's own address, changes nothing at all: the final decision stays as it was and
nothing is sent. -/
theorem redirect_refused {cfg : Cfg W V P} {c : Ctx W V P} {list copy addr}
    (hf : fetch c = some (.redirect list copy addr)) (hl : c.numInstr < cfg.cpuLimit)
    (hn : ¬ Redirects cfg c list addr) (hq : c.queue = []) :
    step cfg c = .cont { c with numInstr := c.numInstr + 1, pos := c.pos + 1 } := by
  obtain ⟨fr, rest, hst⟩ := stack_of_fetch hf
  rcases step_cases (cfg := cfg) hst with ⟨_, i, hi, hfe, ⟨hl', e⟩ | ⟨hl', e⟩⟩ | ⟨hfn, _⟩ | ⟨hfn, _⟩
  · omega
  · rw [hf] at hfe
    injection hfe with hfe
    subst hfe
    rw [e]
    have : execRedirect cfg { c with numInstr := c.numInstr + 1, pos := c.pos + 1 } list copy addr
        = { c with numInstr := c.numInstr + 1, pos := c.pos + 1 } := by
      unfold execRedirect
      split
      · rfl
      · rename_i a ha
        split
        · rename_i h1
          by_cases h2 : (!list && cfg.own c.world a) = true
          · rw [if_pos h2]
          · exfalso
            refine hn ⟨a, ha, h1.1, h1.2.1, h1.2.2, ?_⟩
            cases list with
            | true => exact Or.inl rfl
            | false => exact Or.inr (by simpa using h2)
        · rfl
    show drain (execRedirect cfg { c with numInstr := c.numInstr + 1, pos := c.pos + 1 } list copy addr) = _
    rw [this]
    simp only [drain, hq]
  · rw [hf] at hfn; simp at hfn
  · rw [hf] at hfn; simp at hfn

/-- Vacations are guarded as the compiler guards them (`src/compiler/grammar/actions/
action_vacation.rs`): directly before a `vacation` there is its test, which fails once
`max_out_messages` is reached (`TestVacation::exec`, `src/runtime/actions/action_vacation.rs:27-159`),
and a `Jz` over the action; and no jump leads between them. -/
def Guarded (cfg : Cfg W V P) (s : Script W V P) : Prop :=
  ∀ p f g, s.instrs[p]? = some (.vacation f g) →
    ∃ q t, p = q + 2 ∧ s.instrs[q]? = some (.test t)
      ∧ (∀ v : View W V, cfg.maxOut ≤ v.numOut → (t v).res = .bool false)
      ∧ s.instrs[q + 1]? = some (.jz (q + 3))
      ∧ ∀ i ∈ s.instrs, ∀ x, target i = some x → x ≠ q + 1 ∧ x ≠ q + 2

/-- There is a vacation at a position. -/
def VacAt (s : Script W V P) (p : Nat) : Prop := ∃ f g, s.instrs[p]? = some (.vacation f g)

def Away (s : Script W V P) (p : Nat) : Prop := ¬ VacAt s p ∧ ¬ VacAt s (p + 1)

/-- No script will be resumed directly before a vacation. -/
def Below : List (Frame W V P) → Prop
  | [] => True
  | [_] => True
  | fr :: g :: rest => Away g.script fr.prevPos ∧ Below (g :: rest)

/-- At a vacation the limit is not reached; and before the jump over a vacation the limit is not
reached or the jump will be taken (`b`). -/
def Near (cfg : Cfg W V P) (c : Ctx W V P) (b : Prop) : Prop :=
  ∀ fr rest, c.stack = fr :: rest →
    (VacAt fr.script c.pos → c.numOut < cfg.maxOut)
    ∧ (VacAt fr.script (c.pos + 1) → c.numOut < cfg.maxOut ∨ b)

theorem away_zero {cfg : Cfg W V P} {s : Script W V P} (h : Guarded cfg s) : Away s 0 := by
  constructor
  · rintro ⟨f, g, hv⟩
    obtain ⟨q, t, hq, _⟩ := h _ f g hv
    omega
  · rintro ⟨f, g, hv⟩
    obtain ⟨q, t, hq, _⟩ := h _ f g hv
    omega

/-- After an instruction that is neither a test nor a `Jz`, no vacation is near. -/
theorem away_next {cfg : Cfg W V P} {s : Script W V P} (h : Guarded cfg s) {p : Nat} {i}
    (hi : s.instrs[p]? = some i) (h1 : ∀ t, i ≠ .test t) (h2 : ∀ t, i ≠ .jz t) : Away s (p + 1) := by
  constructor
  · rintro ⟨f, g, hv⟩
    obtain ⟨q, t, hq, ht, _, hj, _⟩ := h _ f g hv
    have : p = q + 1 := by omega
    subst this
    rw [hi] at hj
    injection hj with hj
    exact h2 _ hj
  · rintro ⟨f, g, hv⟩
    obtain ⟨q, t, hq, ht, _, hj, _⟩ := h _ f g hv
    have : p = q := by omega
    subst this
    rw [hi] at ht
    injection ht with ht
    exact h1 _ ht

theorem away_target {cfg : Cfg W V P} {s : Script W V P} (h : Guarded cfg s) {p : Nat} {i x}
    (hi : s.instrs[p]? = some i) (hx : target i = some x) : Away s x := by
  have hm : i ∈ s.instrs := List.mem_of_getElem? hi
  constructor
  · rintro ⟨f, g, hv⟩
    obtain ⟨q, t, hq, ht, _, hj, h5⟩ := h _ f g hv
    exact (h5 i hm x hx).2 hq
  · rintro ⟨f, g, hv⟩
    obtain ⟨q, t, hq, ht, _, hj, h5⟩ := h _ f g hv
    exact (h5 i hm x hx).1 (by omega)

theorem near_away {cfg : Cfg W V P} {c : Ctx W V P} {b : Prop}
    (h : ∀ fr rest, c.stack = fr :: rest → Away fr.script c.pos) : Near cfg c b := by
  intro fr rest hs
  exact ⟨fun hv => absurd hv (h fr rest hs).1, fun hv => absurd hv (h fr rest hs).2⟩

theorem fetch_eq {c : Ctx W V P} {fr rest} (hs : c.stack = fr :: rest) :
    fetch c = fr.script.instrs[c.pos]? := by unfold fetch; rw [hs]

/-- Every vacation is reached below the limit. -/
theorem vacation_below {cfg : Cfg W V P} {w : W} {h c f g}
    (hreg : ∀ n s, cfg.registered n = some s → Guarded cfg s)
    (hh : Hist cfg (Ctx.new w) h (.running c)) (hp : Protocol h)
    (hhost : ∀ s ∈ scriptsOf h, Guarded cfg s) (hf : fetch c = some (.vacation f g)) :
    c.numOut < cfg.maxOut := by
  have := session_rule (cfg := cfg) (w := w) (Q := Guarded cfg)
    (Ir := fun c => Below c.stack ∧ Near cfg c (c.testResult = false))
    (Iw := fun c => Below c.stack ∧ Near cfg c False)
    (A := fun c => ∀ fr rest, c.stack = fr :: rest → Away fr.script c.pos)
    hreg
    ⟨trivial, by intro fr rest h; simp [Ctx.new] at h⟩
    (by
      intro n s _ hs
      simp only [applyInput]
      split
      · refine ⟨trivial, near_away ?_⟩
        intro fr rest h
        simp only [pushScript, Ctx.new, List.cons.injEq] at h
        obtain ⟨rfl, _⟩ := h
        exact away_zero hs
      · exact ⟨trivial, by intro fr rest h; simp [Ctx.new] at h⟩)
    (by
      intro c i hi hc
      cases i with
      | script n s => exact absurd rfl (hi n s)
      | _ => exact hc)
    (by
      intro c n s hc ha hs
      simp only [applyInput]
      split
      · refine ⟨?_, near_away ?_⟩
        · simp only [pushScript]
          cases hst : c.stack with
          | nil => trivial
          | cons g rest => exact ⟨ha g rest hst, by rw [← hst]; exact hc.1⟩
        · intro fr rest h
          simp only [pushScript, List.cons.injEq] at h
          obtain ⟨rfl, _⟩ := h
          exact away_zero hs
      · exact hc)
    (fun _ _ _ _ h => h)
    (by
      rintro c _ ⟨h1, h2⟩
      refine ⟨h1, ?_⟩
      intro fr rest hs
      refine ⟨(h2 fr rest hs).1, fun hv => Or.inl ?_⟩
      rcases (h2 fr rest hs).2 hv with h | h
      · exact h
      · exact h.elim)
    (by
      rintro h c c' hh hall ⟨hB, hN⟩ he
      obtain ⟨k1, k2⟩ := running_inv hh
      cases hs : c.stack with
      | nil => simp [step, hs] at he
      | cons fr rest =>
        have hG := hall.1 fr (by rw [hs]; simp)
        have pop : ∀ c1 : Ctx W V P, c1.stack = rest → c1.pos = fr.prevPos → Below c1.stack ∧ Near cfg c1 (c1.testResult = false) := by
          intro c1 h1 h2
          rw [hs] at hB
          cases rest with
          | nil => exact ⟨by rw [h1]; trivial, by intro fr rest h; rw [h1] at h; simp at h⟩
          | cons g rest =>
            refine ⟨by rw [h1]; exact hB.2, near_away ?_⟩
            intro fr' rest' h3
            rw [h1] at h3
            simp only [List.cons.injEq] at h3
            obtain ⟨rfl, _⟩ := h3
            rw [h2]
            exact hB.1
        rcases step_flow (cfg := cfg) k1.finT (settled_quiet k2) hs with ⟨i, hfe, _, hex, hfl⟩ | ⟨o, c1, e, _⟩ | ⟨_, e⟩
        · rw [fetch_eq hs] at hfe
          rw [he] at hfl
          rcases hfl with ⟨a, _, hpos⟩ | hpu | ⟨_, fr', rest', a, _, rfl⟩
          · refine ⟨by rw [a]; exact hB, ?_⟩
            intro fr' rest' hs'
            rw [a] at hs'
            simp only [hs, List.cons.injEq] at hs'
            obtain ⟨rfl, rfl⟩ := hs'
            rcases hpos with hpos | hpos
            · simp only at hpos
              rw [hpos]
              constructor
              · intro hv
                obtain ⟨f, g, hv⟩ := hv
                obtain ⟨q, t, hq, ht, _, hj, _⟩ := hG _ f g hv
                have hpq : c.pos = q + 1 := by omega
                rw [hpq, hj] at hfe
                injection hfe with hfe
                subst hfe
                rw [he] at hex
                simp only [exec] at hex
                injection hex with hex
                by_cases htr : c.testResult = true
                · rw [if_pos htr] at hex
                  rcases (hN fr rest hs).2 ⟨f, g, hv⟩ with h | h
                  · rw [hex]; exact h
                  · rw [htr] at h; simp at h
                · rw [if_neg htr] at hex
                  rw [hex] at hpos
                  simp only at hpos
                  omega
              · intro hv
                obtain ⟨f, g, hv⟩ := hv
                obtain ⟨q, t, hq, ht, hlim, hj, _⟩ := hG _ f g hv
                have hpq : c.pos = q := by omega
                rw [hpq, ht] at hfe
                injection hfe with hfe
                subst hfe
                rw [he] at hex
                simp only [exec] at hex
                split at hex
                · rename_i b hb
                  injection hex with hex
                  subst hex
                  by_cases hlt : c.numOut < cfg.maxOut
                  · exact Or.inl hlt
                  · right
                    have := hlim c.view (by simp only [Ctx.view]; omega)
                    have hb' : (t c.view).res = .bool b := hb
                    rw [this] at hb'
                    injection hb' with hb'
                    exact hb'.symm
                · simp at hex
                · simp at hex
            · have := away_target hG hfe hpos
              exact ⟨fun hv => absurd hv this.1, fun hv => absurd hv this.2⟩
          · obtain ⟨_, _, f, n, s, rfl, _, _, _, h5, rfl⟩ := hpu.push
            have hall' := allScripts_push hreg (c := { c with numInstr := c.numInstr + 1, pos := c.pos + 1 }) hall hpu
            refine ⟨?_, near_away ?_⟩
            · simp only [pushScript]
              rw [hs]
              refine ⟨?_, by rw [← hs]; exact hB⟩
              exact away_next hG hfe (by simp) (by simp)
            · intro fr' rest' h3
              have := hall'.1 fr' (by rw [h3]; simp)
              simp only [pushScript, List.cons.injEq] at h3
              obtain ⟨rfl, _⟩ := h3
              exact away_zero this
          · simp only [hs, List.cons.injEq] at a
            obtain ⟨rfl, rfl⟩ := a
            exact pop _ rfl rfl
        · rw [e] at he; simp at he
        · rw [e] at he
          injection he with he
          subst he
          exact pop _ rfl rfl)
    (by
      rintro h c o c' hh hall ⟨hB, hN⟩ he
      obtain ⟨k1, k2⟩ := running_inv hh
      cases hs : c.stack with
      | nil =>
        simp only [step, hs] at he
        injection he with h1 h2
        subst h1; subst h2
        exact ⟨⟨hB, by intro fr rest h; rw [hs] at h; simp at h⟩, by simp⟩
      | cons fr rest =>
        have hG := hall.1 fr (by rw [hs]; simp)
        have nil : ∀ c1 : Ctx W V P, c1.stack = [] → Below c1.stack ∧ Near cfg c1 False :=
          fun c1 h1 => ⟨by rw [h1]; trivial, by intro fr rest h; rw [h1] at h; simp at h⟩
        rcases step_flow (cfg := cfg) k1.finT (settled_quiet k2) hs with ⟨i, hfe, _, hex, hfl⟩ | ⟨o, c1, e, _, b, b', _⟩ | ⟨_, e⟩
        · rw [fetch_eq hs] at hfe
          rw [he] at hfl
          obtain ⟨_, _, ⟨a, hpos, b⟩ | ⟨a, b⟩⟩ := hfl
          · have top : ∀ fr' rest', c'.stack = fr' :: rest' → fr' = fr := by
              intro fr' rest' h3
              rw [a] at h3
              simp only [hs, List.cons.injEq] at h3
              exact h3.1.symm
            refine ⟨⟨by rw [a]; exact hB, ?_⟩, ?_⟩
            · intro fr' rest' hs'
              have := top fr' rest' hs'
              subst this
              rcases hpos with hpos | ⟨hpos, hres⟩
              · simp only at hpos
                rw [hpos]
                constructor
                · intro hv
                  obtain ⟨f, g, hv⟩ := hv
                  obtain ⟨q, t, hq, ht, _, hj, _⟩ := hG _ f g hv
                  have hpq : c.pos = q + 1 := by omega
                  rw [hpq, hj] at hfe
                  injection hfe with hfe
                  subst hfe
                  rw [he] at hex
                  simp [exec] at hex
                · intro hv
                  obtain ⟨f, g, hv⟩ := hv
                  obtain ⟨q, t, hq, ht, hlim, hj, _⟩ := hG _ f g hv
                  have hpq : c.pos = q := by omega
                  rw [hpq, ht] at hfe
                  injection hfe with hfe
                  subst hfe
                  rw [he] at hex
                  simp only [exec] at hex
                  left
                  split at hex
                  · simp at hex
                  · rename_i p isNot hb
                    injection hex with _ hex
                    subst hex
                    by_cases hlt : c.numOut < cfg.maxOut
                    · exact hlt
                    · exfalso
                      have := hlim c.view (by simp only [Ctx.view]; omega)
                      have hb' : (t c.view).res = .event p isNot := hb
                      rw [this] at hb'
                      simp at hb'
                  · injection hex with _ hex
                    subst hex
                    rw [(finishLoop_spec ..).1] at hs'
                    simp at hs'
              · simp only [Nat.add_sub_cancel] at hpos
                rw [hpos]
                constructor
                · rintro ⟨f, g, hv⟩
                  rw [hfe] at hv
                  injection hv with hv
                  subst hv
                  exact hres.elim
                · rintro ⟨f, g, hv⟩
                  obtain ⟨q, t, hq, ht, _, hj, _⟩ := hG _ f g hv
                  have hpq : c.pos = q + 1 := by omega
                  rw [hpq, hj] at hfe
                  injection hfe with hfe
                  subst hfe
                  exact hres.elim
            · intro n op ho fr' rest' hs'
              have := top fr' rest' hs'
              subst this
              obtain ⟨⟨_, _, f, hi, _⟩, _, hp'⟩ := b n op ho
              simp only at hp'
              rw [hp']
              subst hi
              exact away_next hG hfe (by simp) (by simp)
          · exact ⟨nil _ a, fun n op ho => absurd ho (b n op)⟩
        · rw [e] at he
          injection he with h1 h2
          subst h1; subst h2
          refine ⟨?_, fun n op ho => absurd ho (b' n op)⟩
          rcases b with b | ⟨rfl, hlen⟩
          · exact nil _ b
          · refine ⟨hB, near_away ?_⟩
            intro fr' rest' h3
            rw [hs] at h3
            simp only [List.cons.injEq] at h3
            obtain ⟨rfl, _⟩ := h3
            constructor
            · rintro ⟨f, g, hv⟩
              rw [List.getElem?_eq_none (by omega)] at hv
              simp at hv
            · rintro ⟨f, g, hv⟩
              rw [List.getElem?_eq_none (by omega)] at hv
              simp at hv
        · rw [e] at he; simp at he)
    hh (fun _ => hp) hhost
  obtain ⟨fr, rest, hs⟩ := stack_of_fetch hf
  refine (this.2 fr rest hs).1 ⟨f, g, ?_⟩
  rw [← fetch_eq hs]; exact hf

/-- **C13 (3).** If vacations are guarded, `redirect` and `vacation` together never send more than
`max_out_messages` messages.
The full claim would count notifications by mail too (`notify_mailto_unlimited`). -/
theorem outgoing_limit_partial {cfg : Cfg W V P} {w : W} {h m} (hh : Hist cfg (Ctx.new w) h m)
    (hp : h ≠ [] → Protocol h) (hhost : ∀ s ∈ scriptsOf h, Guarded cfg s)
    (hreg : ∀ n s, cfg.registered n = some s → Guarded cfg s) :
    outgoing (events h) ≤ cfg.maxOut := by
  have := invariant (G := True) hh (by
    rintro - h' c f g ⟨b, rfl⟩ hh' hf
    have hne : h' ≠ [] := by
      rintro rfl
      generalize hk : ([] : List (Label W V P)) = k at hh'
      generalize hm : Mode.running c = m at hh'
      cases hh' with
      | start => simp at hm
      | _ => simp at hk
    refine vacation_below hreg hh' (protocol_prefix (hp (by simp [hne])) hne) ?_ hf
    intro s hs
    exact hhost s (by rw [scriptsOf_append]; simp [hs]))
  cases m with
  | running c => exact (this.1.out trivial).2
  | waiting c =>
    have := (Inv.out this trivial).2
    rw [outgoing_append] at this
    omega

/-- A redirect and a vacation as compiled, in an endless loop. -/
example : Guarded demo (script (sendTo "x@y.z" true :: [.jmp 2] ++ [
    .test fun v => ⟨.bool (decide (v.numOut < 3)), v.matchv, v.world, false⟩, .jz 5,
    .vacation (fun _ => ("on vacation", "a@b.c")) none, .jmp 0])) := by
  intro p f g hv
  have hp : p < 6 := by
    by_contra hc
    rw [List.getElem?_eq_none (by simp [script]; omega)] at hv
    simp at hv
  have : p = 4 := by
    rcases p with _ | _ | _ | _ | _ | _ | p
    all_goals first | rfl | (simp [script, sendTo] at hv)
  subst this
  refine ⟨2, _, rfl, rfl, ?_, rfl, ?_⟩
  · intro v hv
    simp only [TestRes.bool.injEq, decide_eq_false_iff_not]
    simp only [demo] at hv
    omega
  · intro i hi x hx
    simp only [script, List.cons_append, List.nil_append, List.mem_cons, List.not_mem_nil, or_false] at hi
    rcases hi with rfl | rfl | rfl | rfl | rfl | rfl <;> simp [target, sendTo] at hx <;> omega

/-- Redirect and vacation in an endless loop: one redirect and two vacations are sent. -/
example : ((play { demo with cpuLimit := 30 } (Ctx.new []) (start (sendTo "x@y.z" true :: [.jmp 2] ++ [
    .test fun v => ⟨.bool (decide (v.numOut < 3)), v.matchv, v.world, false⟩, .jz 5,
    .vacation (fun _ => ("on vacation", "a@b.c")) none, .jmp 0]) :: List.replicate 8 .true)).map
      fun r => (redirects (events r.1), outgoing (events r.1))) = some (1, 3) := by decide

/-- **C13 (4).** A notification that is left to the host counts as a message sent, and is handed over once; it is left to
the host if it is not by mail or if the limit is reached. -/
theorem notify_counted {cfg : Cfg W V P} {c : Ctx W V P} {f fcc r}
    (hf : fetch c = some (.notify f fcc)) (hl : c.numInstr < cfg.cpuLimit) (hr : f c.view = some r)
    (hm : (∀ t, r.method ≠ .mailto t) ∨ cfg.maxOut ≤ c.numOut) :
    ∃ o c', step cfg c = .ret (.event o) c' ∧ c'.numOut = c.numOut + 1 ∧ c'.stack = c.stack ∧ c'.final = c.final
      ∧ (o :: c'.queue).countP (fun e => match e with | .notify _ => true | .send _ _ _ => true | _ => false) = 1
      ∧ .notify r.event ∈ o :: c'.queue := by
  obtain ⟨fr, rest, hst⟩ := stack_of_fetch hf
  rcases step_cases (cfg := cfg) hst with ⟨_, i, hi, hfe, ⟨hl', e⟩ | ⟨hl', e⟩⟩ | ⟨hfn, _⟩ | ⟨hfn, _⟩
  · omega
  · rw [hf] at hfe
    injection hfe with hfe
    subst hfe
    rw [e]
    have hv : f ({ c with numInstr := c.numInstr + 1, pos := c.pos + 1 } : Ctx W V P).view = some r := hr
    simp only [exec, execNotify, hv]
    split
    · rename_i h1 h2
      rcases hm with hm | hm
      · exact absurd h1 (hm _)
      · exact absurd (of_decide_eq_true h2) (by simpa using hm)
    · rename_i h1 h2
      rcases hm with hm | hm
      · exact absurd h1 (hm _)
      · exact absurd (of_decide_eq_true h2) (by simpa using hm)
    · cases fcc with
      | none => exact ⟨_, _, rfl, rfl, rfl, rfl, rfl, by simp⟩
      | some g => exact ⟨_, _, rfl, rfl, rfl, rfl, rfl, by simp⟩
  · rw [hf] at hfn; simp at hfn
  · rw [hf] at hfn; simp at hfn

/-- Two notifications by another method leave room for one redirect of three messages allowed. -/
example : ((play { demo with maxOut := 3, maxRedirects := 5 } (Ctx.new []) (start (List.replicate 2
      (.notify (fun _ => some ⟨.other, "", ""⟩) none) ++ List.replicate 2 (sendTo "x@y.z" true)) ::
      List.replicate 10 .true)).map fun r => redirects (events r.1)) = some 1 := by decide

/-- A notification by mail is not counted: any number of them can be sent, whatever the limit. -/
theorem notify_mailto_unlimited :
    ((play { demo with maxOut := 1 } (Ctx.new []) (start (List.replicate 5
      (.notify (fun _ => some ⟨.mailto (some ("a@b.c", "text")), "", ""⟩) none)) ::
      List.replicate 10 .true)).map fun r =>
        (events r.1).countP fun | .send _ _ _ => true | _ => false) = some 5 := by decide

end Sieve.Vm
