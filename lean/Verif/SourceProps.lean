import Verif.SourceTests
import Verif.VmSession
import Verif.VmProps

/-!
# C05, C06, C07: compiled scripts do what their structure says

Theorems about the interpreter running the output of the compiler, against the structured semantics
of `SourceModel`.
-/

namespace Sieve.Source

open Sieve.Vm Sieve.Compile

variable {W V P A T E : Type} {cfg : Cfg W V P} {lim : Limits}
variable {I : Interp cfg A T E} {src : Script W V P → Blk A T E}

/-- `s` is what the compiler makes of the script text `src s`, which is within the compiler's limits
and in which every `continue` belongs to the innermost loop. -/
structure FromSource (lim : Limits) (I : Interp cfg A T E) (src : Script W V P → Blk A T E) (s : Script W V P) : Prop where
  ok : (src s).Ok lim []
  conts : (src s).Conts []
  compiled : ∃ ops, compile lim (src s).toks = some ops ∧ s.instrs = ops.map I.lower

theorem FromSource.compiled' {s : Script W V P} (h : FromSource lim I src s) : Compiled lim I src s := by
  obtain ⟨ops, h1, h2⟩ := h.compiled
  rw [compile_render _ h.ok] at h1
  injection h1 with h1
  subst h1
  exact ⟨⟨h.ok, h.conts⟩, h2⟩

/-- The two states are the same except for positions, the instruction counter and the test result. -/
def SameState (m c : Ctx W V P) : Prop :=
  (∃ p n t st, m = { c with pos := p, numInstr := n, testResult := t, stack := st }) ∧
    m.stack.map Frame.script = c.stack.map Frame.script

def Agree : Mode W V P → SMode W V P A T E → Prop
  | .waiting m, .waiting s => SameState m s.ctx
  | .running m, .running s => SameState m s.ctx
  | _, _ => False

/-! ## The host's input -/

theorem stacked_scripts {st sst : List (Frame W V P)} {ks : List (Todo A T E)} {p} (h : Stacked lim I src st sst ks p) :
    st.map Frame.script = sst.map Frame.script := by
  induction h with
  | nil => rfl
  | cons h _ _ _ ih => simp [h.script, ih]

theorem sim_same {m : Ctx W V P} {s : Conf W V P A T E} (h : Sim lim I src m s) : SameState m s.ctx := by
  rcases h with h | h
  · exact ⟨⟨_, _, _, _, h.same⟩, stacked_scripts h.stacked⟩
  · cases h with
    | mk h1 h2 h3 h4 h5 h6 h7 h8 =>
      refine ⟨⟨_, _, _, _, h1⟩, ?_⟩
      rw [h2, h3]
      simp [h4.script, stacked_scripts h8]

theorem sim_queue {m : Ctx W V P} {s : Conf W V P A T E} (h : Sim lim I src m s) : m.queue = s.ctx.queue := by
  obtain ⟨⟨p, n, t, st, h⟩, _⟩ := sim_same h
  rw [h]

theorem sim_empty {m : Ctx W V P} {s : Conf W V P A T E} (h : Sim lim I src m s) :
    m.stack.isEmpty = s.ctx.stack.isEmpty := by
  have := congrArg List.length (sim_same h).2
  rw [List.length_map, List.length_map] at this
  cases hm : m.stack <;> cases hc : s.ctx.stack <;> simp_all

theorem same_queue {m c : Ctx W V P} (h : Same m c) (q) : Same { m with queue := q } { c with queue := q } := by
  have := congrArg (fun x : Ctx W V P => { x with queue := q }) h
  exact this

theorem same_result {m c : Ctx W V P} (h : Same m c) (a b) : Same { m with testResult := a } { c with testResult := b } := by
  have := congrArg (fun x : Ctx W V P => { x with testResult := a }) h
  exact this

/-- Taking an event from the queue. -/
theorem sim_dequeue {m : Ctx W V P} {s : Conf W V P A T E} (q) :
    (Sim lim I src m s → Sim lim I src { m with queue := q } ⟨s.todo, { s.ctx with queue := q }⟩) ∧
    (SimAt lim I src m s → SimAt lim I src { m with queue := q } ⟨s.todo, { s.ctx with queue := q }⟩) := by
  have hat : SimAt lim I src m s → SimAt lim I src { m with queue := q } ⟨s.todo, { s.ctx with queue := q }⟩ := by
    intro h
    exact ⟨same_queue h.same q, h.stacked⟩
  refine ⟨?_, hat⟩
  rintro (h | h)
  · exact .inl (hat h)
  · cases h with
    | mk h1 h2 h3 h4 h5 h6 h7 h8 =>
      exact .inr (.mk (same_queue h1 q) h2 h3 h4 h5 h6 h7 h8)

theorem sync_waiting {st sst : List (Frame W V P)} {ks : List (Todo A T E)} {p} (h : Stacked lim I src st sst ks p) :
    sync src ks sst = ks := by
  have := stacked_length h
  cases h with
  | nil => rfl
  | cons => exact sync_same this.2 (by simp)

/-- Any input that is not a script. -/
theorem sim_answer {m : Ctx W V P} {s : Conf W V P A T E} {i} (hi : ∀ n sc, i ≠ Input.script n sc) (h : Sim lim I src m s) :
    Sim lim I src (applyInput cfg m i) (feed cfg src s i) ∧ (feed cfg src s i).todo = s.todo ∧
      (feed cfg src s i).ctx.partStack = s.ctx.partStack := by
  have hst : (applyInput cfg s.ctx i).stack = s.ctx.stack ∧ (applyInput cfg s.ctx i).partStack = s.ctx.partStack := by
    cases i with
    | script n sc => exact absurd rfl (hi n sc)
    | _ => exact ⟨rfl, rfl⟩
  rcases h with h | h
  · have hs := sync_waiting h.stacked
    have ht : (feed cfg src s i).todo = s.todo := by simp only [feed, hst.1, hs]
    refine ⟨.inl ⟨?_, ?_⟩, ht, hst.2⟩
    · have := h.same
      cases i with
      | script n sc => exact absurd rfl (hi n sc)
      | true => exact same_result this _ _
      | false => exact same_result this _ _
      | fncResult v =>
        have hw : m.world = s.ctx.world := (congrArg Ctx.world this).trans rfl
        have := congrArg (fun x : Ctx W V P => { x with world := cfg.pushResult m.world v }) this
        simp only [Same, applyInput, feed]
        rw [hw] at this ⊢
        exact this
    · rw [ht]
      cases i with
      | script n sc => exact absurd rfl (hi n sc)
      | _ => exact h.stacked
  · cases h with
    | @mk c fr st sfr sst n K ks h1 h2 h3 h4 h5 h6 h7 h8 =>
      have ht : (feed cfg src ⟨K :: ks, c⟩ i).todo = K :: ks := by
        simp only [feed, hst.1, h3]
        have := stacked_length h8
        exact sync_same (by simp [this.2]) (by simp)
      refine ⟨?_, ht, hst.2⟩
      rw [show feed cfg src ⟨K :: ks, c⟩ i = ⟨K :: ks, applyInput cfg c i⟩ by
        exact congrArg (Conf.mk · (applyInput cfg c i)) ht]
      refine .inr ?_
      cases i with
      | script n sc => exact absurd rfl (hi n sc)
      | true =>
        refine .mk (same_result h1 _ _) h2 h3 h4 h5 h6 ?_ h8
        simp only [applyInput, h7]
        cases c.testResult <;> cases n <;> rfl
      | false =>
        refine .mk (same_result h1 _ _) h2 h3 h4 h5 h6 ?_ h8
        simp only [applyInput, h7]
        cases c.testResult <;> cases n <;> rfl
      | fncResult v =>
        refine .mk ?_ h2 h3 h4 h5 h6 h7 h8
        have hw : m.world = c.world := (congrArg Ctx.world h1).trans rfl
        have := congrArg (fun x : Ctx W V P => { x with world := cfg.pushResult m.world v }) h1
        simp only [Same, applyInput]
        rw [hw] at this ⊢
        exact this

/-- A script. -/
theorem sim_script {m : Ctx W V P} {s : Conf W V P A T E} {n sc} (hc : Compiled lim I src sc) (h : SimAt lim I src m s)
    (hp : PartsOk s) :
    SimAt lim I src (applyInput cfg m (.script n sc)) (feed cfg src s (.script n sc)) ∧ PartsOk (feed cfg src s (.script n sc)) := by
  have hcache : m.cache = s.ctx.cache := (congrArg Ctx.cache h.same).trans rfl
  have hloc : m.locals = s.ctx.locals := (congrArg Ctx.locals h.same).trans rfl
  have hmat : m.matchv = s.ctx.matchv := (congrArg Ctx.matchv h.same).trans rfl
  have hlen := stacked_length h.stacked
  by_cases ha : sc.numMatchVars ≤ maxMatchVars ∧ sc.numVars ≤ maxLocalVars
  · have e1 : feed cfg src s (.script n sc) = ⟨[.blk (src sc)] :: s.todo, applyInput cfg s.ctx (.script n sc)⟩ := by
      simp only [feed, applyInput, if_pos ha]
      congr 1
      exact sync_push hlen.2
    rw [e1]
    refine ⟨⟨?_, ?_⟩, ?_⟩
    · simp only [Same, applyInput, if_pos ha, pushScript]
      have := congrArg (fun x : Ctx W V P => { x with
        cache := (n, sc) :: m.cache, locals := List.replicate sc.numVars cfg.empty
        matchv := List.replicate sc.numMatchVars cfg.empty, pos := 0, testResult := Bool.false
        stack := ⟨sc, m.pos, m.locals, m.matchv⟩ :: m.stack }) h.same
      rw [hcache] at this ⊢
      exact this
    · simp only [applyInput, if_pos ha, pushScript]
      exact .cons ⟨rfl, hloc, hmat⟩ hc (start_at hc) h.stacked
    · simp only [PartsOk, List.map_cons, List.sum_cons, applyInput, if_pos ha, pushScript]
      unfold PartsOk at hp
      simpa [nparts] using hp
  · have e1 : feed cfg src s (.script n sc) = s := by
      simp only [feed, applyInput, if_neg ha]
      rw [sync_waiting h.stacked]
    rw [e1]
    simp only [applyInput, if_neg ha]
    exact ⟨h, hp⟩

/-! ## Sessions -/

theorem simVal_stack {m : Ctx W V P} {s : Conf W V P A T E} (h : SimVal lim I src m s) : m.stack ≠ [] := by
  cases h with
  | mk _ h => rw [h]; simp

theorem io_append (a b : List (Label W V P)) : io (a ++ b) = io a ++ io b := by simp [io]

theorem queue_notInclude {w : W} {h c} (hh : Hist cfg (Ctx.new w) h (.waiting c)) (hp : h ≠ [] → Protocol h) :
    ∀ e ∈ c.queue, notInclude e := by
  have := session_rule (cfg := cfg) (w := w) (Q := fun _ => True) (Ir := fun _ => True) (Iw := fun _ => True)
    (A := fun _ => True) (fun _ _ _ => trivial) trivial (fun _ _ _ _ => trivial) (fun _ _ _ _ => trivial)
    (fun _ _ _ _ _ _ => trivial) (fun _ _ _ _ _ => trivial) (fun _ _ _ => trivial) (fun _ _ _ _ _ _ _ => trivial)
    (fun _ _ _ _ _ _ _ _ => ⟨trivial, fun _ _ _ => trivial⟩) hh hp (fun _ _ => trivial)
  exact this.2.1

theorem ssteps_hist {w : W} {h} {s s' : Conf W V P A T E} (hh : SHist I src w h (.running s)) (hs : SSteps I src s s') :
    SHist I src w h (.running s') := by
  induction hs with
  | refl => exact hh
  | head h _ ih => exact ih (.step hh h)

/-- Scripts that are stopped by the limit. -/
theorem sim_cut {m : Ctx W V P} {s : Conf W V P A T E} (n : Nat) (h : Sim lim I src m s) :
    SimAt lim I src (finishLoop cfg { m with numInstr := n }) ⟨[], finishLoop cfg s.ctx⟩ ∧
      PartsOk (⟨[], finishLoop cfg s.ctx⟩ : Conf W V P A T E) := by
  have hm : ({ m with numInstr := n } : Ctx W V P) = move ⟨m.pos, n, m.testResult, m.stack⟩ s.ctx := by
    obtain ⟨⟨p, k, t, st, h⟩, _⟩ := sim_same h
    rw [h]
    rfl
  refine ⟨⟨?_, ?_⟩, by simp [PartsOk]⟩
  · rw [hm, finishLoop_move]
    rfl
  · rw [(finishLoop_spec cfg _).1, (finishLoop_spec cfg _).1]
    exact .nil

theorem simulated {w : W} {h m} (hreg : ∀ n s, cfg.registered n = some s → FromSource lim I src s)
    (hh : Hist cfg (Ctx.new w) h m) (hp : h ≠ [] → Protocol h) (hhost : ∀ s ∈ scriptsOf h, FromSource lim I src s) :
    match m with
    | .running c => ∃ s, SHist I src w (io h) (.running s) ∧ Sim lim I src c s ∧ PartsOk s
    | .waiting c => ∃ s, SHist I src w (io h) (.waiting s) ∧ Sim lim I src c s ∧ PartsOk s ∧
        (Asked h → SimAt lim I src c s) := by
  have pre : ∀ (a b : List (Label W V P)), (a ++ b ≠ [] → Protocol (a ++ b)) → a ≠ [] → Protocol a :=
    fun a b h ha => protocol_prefix (h (by simp [ha])) ha
  -- the host's input
  have inp : ∀ h c i s, Hist cfg (Ctx.new w) h (.waiting c) → Protocol (h ++ [.input i]) →
      (∀ s ∈ scriptsOf (h ++ [.input i]), FromSource lim I src s) → Sim lim I src c s → PartsOk s →
      (Asked h → SimAt lim I src c s) →
      Sim lim I src (applyInput cfg c i) (feed cfg src s i) ∧ PartsOk (feed cfg src s i) := by
    intro h c i s hh hp hsc h1 h2 h3
    by_cases hi : ∃ n sc, i = .script n sc
    · obtain ⟨n, sc, rfl⟩ := hi
      have hfs := hsc sc (by rw [scriptsOf_append]; simp [scriptsOf])
      have hat : SimAt lim I src c s := by
        rcases protocol_inv hp with ⟨rfl, _⟩ | ⟨hp0, hl⟩
        · have := hist_nil hh
          subst this
          rcases h1 with h1 | h1
          · exact h1
          · exact absurd rfl (simVal_stack h1)
        · exact h3 (hl n sc rfl)
      have := sim_script (cfg := cfg) (n := n) hfs.compiled' hat h2
      exact ⟨.inl this.1, this.2⟩
    · obtain ⟨k1, k2, k3⟩ := sim_answer (fun n sc e => hi ⟨n, sc, e⟩) h1
      refine ⟨k1, ?_⟩
      unfold PartsOk at *
      rw [k2, k3]
      exact h2
  induction hh with
  | start =>
    refine ⟨_, .start, .inl ⟨rfl, .nil⟩, by simp [PartsOk], fun _ => ⟨rfl, .nil⟩⟩
  | @feedRet h c i o c' hh he ih =>
    have hsc : ∀ s ∈ scriptsOf (h ++ [.input i]), FromSource lim I src s := fun s hs => hhost s (by
      rw [show h ++ [Label.input i, .output o] = (h ++ [.input i]) ++ [.output o] by simp, scriptsOf_append]
      simp [hs])
    obtain ⟨s, i1, i2, i3, i4⟩ := ih (pre _ _ hp) (fun s hs => hsc s (by rw [scriptsOf_append]; simp [hs]))
    obtain ⟨k1, k2⟩ := inp h c i s hh (pre _ [.output o] (by simpa using hp) (by simp)) hsc i2 i3 i4
    have hq := sim_queue k1
    have hs := sim_empty k1
    rw [io_append]
    rcases enter_ret he with ⟨ev, q, hq', rfl, rfl⟩ | ⟨hq', hs', rfl, rfl⟩
    · have he' : enter (feed cfg src s i).ctx = .ret (.event ev) { (feed cfg src s i).ctx with queue := q } := by
        unfold enter
        rw [← hq, hq']
      have hni := queue_notInclude (Hist.feedRet hh he) hp
      have hev : notInclude ev := by
        cases i with
        | script n sc =>
          have h0 := queue_notInclude hh (pre _ _ hp) ev
          have : (applyInput cfg c (.script n sc)).queue = c.queue := by simp only [applyInput]; split <;> rfl
          rw [this] at hq'
          exact h0 (by rw [hq']; simp)
        | _ => exact queue_notInclude hh (pre _ _ hp) ev (by rw [show c.queue = ev :: q from hq']; simp)
      refine ⟨_, .feedRet i1 he', (sim_dequeue q).1 k1, k2, ?_⟩
      rintro ⟨h', n, op, e⟩
      have := last_ne e
      injection this with this
      injection this with this
      rw [this] at hev
      exact absurd hev id
    · have he' : enter (feed cfg src s i).ctx = .ret .none (feed cfg src s i).ctx := by
        unfold enter
        rw [← hq, hq']
        simp only
        rw [← hs, hs']
        rfl
      refine ⟨_, .feedRet i1 he', k1, k2, ?_⟩
      rintro ⟨h', n, op, e⟩
      have := last_ne e
      simp at this
  | @feedGo h c i c' hh he ih =>
    obtain ⟨s, i1, i2, i3, i4⟩ := ih (pre _ _ hp) (fun s hs => hhost s (by rw [scriptsOf_append]; simp [hs]))
    obtain ⟨k1, k2⟩ := inp h c i s hh (hp (by simp)) hhost i2 i3 i4
    obtain ⟨rfl, hq', hs'⟩ := enter_cont he
    have hq := sim_queue k1
    have hs := sim_empty k1
    rw [io_append]
    refine ⟨_, .feedGo i1 (c := (feed cfg src s i).ctx) ?_, k1, k2⟩
    unfold enter
    rw [← hq, hq']
    simp only
    rw [← hs, if_neg (by simpa using hs')]
  | @pass h c c' hh he ih =>
    have hsc : ∀ s ∈ scriptsOf h, FromSource lim I src s := fun s hs => hhost s (by rw [scriptsOf_append]; simp [hs])
    obtain ⟨s, i1, i2, i3⟩ := ih (pre _ _ hp) hsc
    have hall := all_scripts (fun n s h => (hreg n s h).compiled') hh (fun s hs => (hsc s hs).compiled')
    rcases sim_step i2 i3 (fun n s h => (hreg n s h).compiled') hall.2 with hx | hf
    · rw [he] at hx; cases hx
    · rw [he] at hf
      obtain ⟨s', h1, h2⟩ := hf
      rw [io_append, show io [Label.pass c] = ([] : List (IO W V P)) from rfl, List.append_nil]
      exact ⟨s', ssteps_hist i1 h1, h2, ssteps_parts h1 i3⟩
  | @passRet h c o c' hh he ih =>
    have hsc : ∀ s ∈ scriptsOf h, FromSource lim I src s := fun s hs => hhost s (by rw [scriptsOf_append]; simp [hs])
    obtain ⟨s, i1, i2, i3⟩ := ih (pre _ _ hp) hsc
    have hall := all_scripts (fun n s h => (hreg n s h).compiled') hh (fun s hs => (hsc s hs).compiled')
    rcases sim_step i2 i3 (fun n s h => (hreg n s h).compiled') hall.2 with hx | hf
    · rw [he] at hx
      injection hx with hx hl
      subst hx hl
      rw [io_append, show io [Label.pass c, .output (.error .cpuLimit)] = ([.output (.error .cpuLimit)] : List (IO W V P)) from rfl]
      obtain ⟨k1, k2⟩ := sim_cut (c.numInstr + 1) i2
      exact ⟨_, .cut i1, .inl k1, k2, fun _ => k1⟩
    · rw [he] at hf
      obtain ⟨s1, s2, h1, h2, h3, h4⟩ := hf
      rw [io_append, show io [Label.pass c, .output o] = ([.output o] : List (IO W V P)) from rfl]
      refine ⟨s2, .ret (ssteps_hist i1 h1) h2, h3, ?_, ?_⟩
      · have := sstep_parts (I := I) (src := src) s1 (ssteps_parts h1 i3)
        rw [h2] at this
        exact this
      · rintro ⟨h', n, op, e⟩
        have := last_ne e
        injection this with this
        exact h4 ⟨n, op, this⟩

/-- **C06.** Compiled scripts do what their structure says.  Take any session of the interpreter in
which the host follows the protocol and all scripts come out of the compiler.  Then the structured
scripts, given the same inputs, produce the same outputs and end in the same state.  If the limit of
instructions is exceeded (`Vm.cpu_limit` and `Vm.cpu_limit_reported` say when), they are stopped at that point by the same error. -/
theorem runs_as_written {w : W} {h m} (hh : Hist cfg (Ctx.new w) h m) (hp : h ≠ [] → Protocol h)
    (hhost : ∀ s ∈ scriptsOf h, FromSource lim I src s)
    (hreg : ∀ n s, cfg.registered n = some s → FromSource lim I src s) :
    ∃ s, SHist I src w (io h) s ∧ Agree m s := by
  have := simulated hreg hh hp hhost
  cases m with
  | running c =>
    obtain ⟨s, h1, h2, _⟩ := this
    exact ⟨_, h1, sim_same h2⟩
  | waiting c =>
    obtain ⟨s, h1, h2, _⟩ := this
    exact ⟨_, h1, sim_same h2⟩

/-- **C07**, as far as it holds.  `continue` is covered by `runs_as_written` when the innermost loop around
it is a `while` loop (`Blk.Conts`) that is not itself a statement of another `while` loop (`Blk.Ok`).
The full claim would need neither condition; `continue_dropped`, `continue_rejected` and
`continue_keeps_part` show that it is false without them. -/
theorem continue_as_written_partial {w : W} {h m} (hh : Hist cfg (Ctx.new w) h m) (hp : h ≠ [] → Protocol h)
    (hhost : ∀ s ∈ scriptsOf h, FromSource lim I src s)
    (hreg : ∀ n s, cfg.registered n = some s → FromSource lim I src s) :
    ∃ s, SHist I src w (io h) s ∧ Agree m s :=
  runs_as_written hh hp hhost hreg

/-- What `continue` does to a running script: everything up to the innermost `while` loop is dropped, and
its condition is evaluated next. -/
theorem continue_evaluates_condition {K pre post : Todo A T E} {ks} {c : Ctx W V P} {e b cl rest}
    (hK : K = pre ++ .loop e b cl :: post) (hpre : ∀ x ∈ pre, ∀ e b cl, x ≠ .loop e b cl) :
    ∃ c', sstep I src ⟨(.blk (.cons .cont rest) :: K) :: ks, c⟩ = .cont ⟨(.loop e b cl :: post) :: ks, c'⟩ := by
  subst hK
  have : ∀ (pre : Todo A T E) (c : Ctx W V P), (∀ x ∈ pre, ∀ e b cl, x ≠ .loop e b cl) →
      (continueTo (pre ++ .loop e b cl :: post) c).1 = .loop e b cl :: post := by
    intro pre
    induction pre with
    | nil => intro c _; rfl
    | cons x pre ih =>
      intro c h
      have hx := h x (by simp)
      have ih := fun c => ih c fun y hy => h y (by simp [hy])
      cases x with
      | loop e b cl => exact absurd rfl (hx e b cl)
      | _ => exact ih _
  refine ⟨(continueTo (.blk rest :: (pre ++ .loop e b cl :: post)) c).2, ?_⟩
  simp only [sstep]
  rw [show (continueTo (.blk rest :: (pre ++ .loop e b cl :: post)) c).1 = .loop e b cl :: post from this pre c hpre]

/-! ## Sessions of structured scripts are determined by the host's inputs -/

inductive Runs (I : Interp cfg A T E) (src : Script W V P → Blk A T E) : Conf W V P A T E → Out P → Conf W V P A T E → Prop where
  | ret {s o s'} : sstep I src s = .ret o s' → Runs I src s o s'
  | step {s s1 o s'} : sstep I src s = .cont s1 → Runs I src s1 o s' → Runs I src s o s'

theorem runs_det {s : Conf W V P A T E} {o o' s1 s2} (h : Runs I src s o s1) (h' : Runs I src s o' s2) : o = o' ∧ s1 = s2 := by
  induction h with
  | ret h =>
    cases h' with
    | ret h' => rw [h] at h'; cases h'; exact ⟨rfl, rfl⟩
    | step h' _ => rw [h] at h'; cases h'
  | step h _ ih =>
    cases h' with
    | ret h' => rw [h] at h'; cases h'
    | step h' h2 => rw [h] at h'; cases h'; exact ih h2

/-- One exchange with the host. -/
inductive Turn (I : Interp cfg A T E) (src : Script W V P → Blk A T E) (s : Conf W V P A T E) (i : Input W V P) :
    Out P → Conf W V P A T E → Prop where
  | now {o c} : enter (feed cfg src s i).ctx = .ret o c → Turn I src s i o ⟨(feed cfg src s i).todo, c⟩
  | later {o c s'} : enter (feed cfg src s i).ctx = .cont c → Runs I src ⟨(feed cfg src s i).todo, c⟩ o s' → Turn I src s i o s'

theorem turn_det {s : Conf W V P A T E} {i o o' s1 s2} (h : Turn I src s i o s1) (h' : Turn I src s i o' s2) :
    o = o' ∧ s1 = s2 := by
  cases h with
  | now h =>
    cases h' with
    | now h' => rw [h] at h'; cases h'; exact ⟨rfl, rfl⟩
    | later h' _ => rw [h] at h'; cases h'
  | later h h2 =>
    cases h' with
    | now h' => rw [h] at h'; cases h'
    | later h' h2' => rw [h] at h'; cases h'; exact runs_det h2 h2'

inductive Turns (I : Interp cfg A T E) (src : Script W V P → Blk A T E) (w : W) :
    List (Input W V P) → List (IO W V P) → Conf W V P A T E → Prop where
  | nil : Turns I src w [] [] ⟨[], Ctx.new w⟩
  | snoc {is h s i o s'} : Turns I src w is h s → Turn I src s i o s' →
      Turns I src w (is ++ [i]) (h ++ [.input i, .output o]) s'

theorem turns_det {w : W} {is h1 s1} (h : Turns I src w is h1 s1) : ∀ {h2 s2}, Turns I src w is h2 s2 → h1 = h2 ∧ s1 = s2 := by
  induction h with
  | nil =>
    intro h2 s2 h'
    generalize hn : ([] : List (Input W V P)) = is at h'
    cases h' with
    | nil => exact ⟨rfl, rfl⟩
    | snoc => simp at hn
  | @snoc is h s i o s' _ ht ih =>
    intro h2 s2 h'
    generalize hn : is ++ [i] = js at h'
    cases h' with
    | nil => simp at hn
    | snoc hh ht' =>
      obtain ⟨e1, e2⟩ := List.append_inj' hn rfl
      simp only [List.cons.injEq, and_true] at e2
      subst e1 e2
      obtain ⟨rfl, rfl⟩ := ih hh
      obtain ⟨rfl, rfl⟩ := turn_det ht ht'
      exact ⟨rfl, rfl⟩

def inputsOf (h : List (IO W V P)) : List (Input W V P) :=
  h.filterMap fun | .input i => some i | .output _ => none

theorem shist_turns {w : W} {h m} (hh : SHist I src w h m) (hn : .output (.error .cpuLimit) ∉ h) :
    match m with
    | .waiting s => Turns I src w (inputsOf h) h s
    | .running s => ∃ h' i s0 c s1, h = h' ++ [.input i] ∧ Turns I src w (inputsOf h') h' s0 ∧
        enter (feed cfg src s0 i).ctx = .cont c ∧ s1 = ⟨(feed cfg src s0 i).todo, c⟩ ∧ SSteps I src s1 s := by
  induction hh with
  | start => exact .nil
  | feedRet _ he ih =>
    have ih := ih (fun hm => hn (List.mem_append_left _ hm))
    have := Turns.snoc ih (.now he)
    simpa [inputsOf] using this
  | feedGo _ he ih =>
    have ih := ih (fun hm => hn (List.mem_append_left _ hm))
    exact ⟨_, _, _, _, _, rfl, ih, he, rfl, .refl⟩
  | step _ he ih =>
    obtain ⟨h', i, s0, c, s1, e1, e2, e3, e4, e5⟩ := ih hn
    exact ⟨h', i, s0, c, s1, e1, e2, e3, e4, e5.trans (.head he .refl)⟩
  | ret _ he ih =>
    obtain ⟨h', i, s0, c, s1, rfl, e2, e3, rfl, e5⟩ := ih (fun hm => hn (List.mem_append_left _ hm))
    have : ∀ {a b : Conf W V P A T E} {o s'}, SSteps I src a b → sstep I src b = .ret o s' → Runs I src a o s' := by
      intro a b o s' h hr
      induction h with
      | refl => exact .ret hr
      | head h _ ih => exact .step h (ih hr)
    have := Turns.snoc e2 (.later e3 (this e5 he))
    simpa [inputsOf] using this
  | cut => simp at hn

/-- The host's inputs determine what a structured script outputs and its state, if it is not stopped by the
limit of instructions: `runs_as_written` leaves no choice. -/
theorem source_deterministic {w : W} {h1 h2 s1 s2} (hh1 : SHist I src w h1 (.waiting s1))
    (hh2 : SHist I src w h2 (.waiting s2)) (hi : inputsOf h1 = inputsOf h2)
    (hn1 : .output (.error .cpuLimit) ∉ h1) (hn2 : .output (.error .cpuLimit) ∉ h2) : h1 = h2 ∧ s1 = s2 := by
  have a := shist_turns hh1 hn1
  have b := shist_turns hh2 hn2
  simp only at a b
  rw [hi] at a
  exact turns_det a b

/-! ## Compiled scripts have all their jumps inside -/

/-- **C08.** A script made by the compiler from any token sequence it accepts: every jump of the
instructions executed by the interpreter stays within the script. -/
theorem compiled_inRange {ts : List (Tok A T E)} {ops s} (h : compile lim ts = some ops)
    (hs : s.instrs = ops.map I.lower) : InRange s := by
  intro i hi t ht
  rw [hs, List.mem_map] at hi
  obtain ⟨op, h1, rfl⟩ := hi
  rw [hs, List.length_map]
  refine compiled_in_range h op h1 t ?_
  cases op <;> simp_all [Interp.lower, Vm.target, Op.target]
  rename_i a
  have := I.plain a
  cases hx : I.act a <;> simp_all [Vm.target, Plain]

end Sieve.Source
