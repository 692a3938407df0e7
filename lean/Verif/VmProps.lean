import Verif.VmSession

/-!
# Interpreter properties: delivery (C09, C10, C17), CPU limit (C11), capabilities (C15)
-/

namespace Sieve.Vm

variable {W V P : Type}

/-! ## A small instance used in the examples

The world is the list of global flags, variables are numbers, payloads are strings. -/

def demo : Cfg (List String) Nat String where
  cpuLimit := 100
  maxRedirects := 1
  maxOut := 3
  maxReceived := 10
  maxIncludes := 3
  allowed := fun c => c = .known "fileinto"
  registered := fun n => if n = "lib" then some ⟨[.fileInto true (fun _ => "Lib") (fun _ => [])], 0, 0⟩
    else none
  received := fun _ => 0
  own := fun _ a => a = "me@example.org"
  nested := fun _ _ _ => [1, 2]
  globalFlags := id
  render := fun _ => "message"
  toBool := fun n => n != 0
  isEmpty := fun n => n == 0
  empty := 0
  pushResult := fun w _ => w

abbrev DInstr := Instr (List String) Nat String

/-- A test with a fixed outcome. -/
def constTest (b : Bool) : DInstr := .test fun v => ⟨.bool b, v.matchv, v.world, false⟩
/-- A test delegated to the host. -/
def askTest (isNot : Bool) : DInstr := .test fun v => ⟨.event "mailboxexists" isNot, v.matchv, v.world, false⟩
def fileTo (s : String) (copy : Bool) : DInstr := .fileInto copy (fun _ => s) (fun _ => [])
def keepI (fl : List String) : DInstr := .keep (fun _ => fl)
def addHeaderI : DInstr := .edit fun v => (v.world, true)
def sendTo (a : String) (copy : Bool) : DInstr := .redirect false copy (fun _ => some a)

def script (l : List DInstr) : Script (List String) Nat String := ⟨l, 4, 4⟩
def start (l : List DInstr) : Input (List String) Nat String := .script ⟨false, ""⟩ (script l)

/-- What the host sees when it runs a script, given its inputs. -/
def sees (is : List (Input (List String) Nat String)) : Option (List (Out String)) :=
  (play demo (Ctx.new []) is).map fun r => outputs r.1

/-! ## C17: the final decision is the verdict over the executed actions -/

/-- **C17.** In every session that has come to its end, the dispositions reported to the host are
exactly what the rules `judge` make of the sequence of executed actions: one `Keep` with the right
flags, one `Discard`, or none. -/
theorem disposition_decided {cfg : Cfg W V P} {w h c} (S : Session cfg w h c)
    (hend : .none ∈ outputs h) :
    CarriesOut cfg (verdict (acts cfg h)) (dispositions (events h)) := by
  have hne : h ≠ [] := by rintro rfl; simp at hend
  rcases phase S.registered S.hist S.host (fun _ => S.protocol) with ⟨h0, _⟩ | hp
  · exact absurd h0 hne
  · rcases hp with ⟨_, _, hn⟩ | ⟨hO, _, hq⟩
    · exact absurd hend hn
    · have := hO.carried
      rw [hq hend] at this
      simpa using this

/-- While no run has returned `None` and a script is still active, no disposition has been
reported: the decision is made once, at the end. -/
theorem no_early_disposition {cfg : Cfg W V P} {w h c} (S : Session cfg w h c)
    (hc : c.stack ≠ []) : dispositions (events h) = [] ∧ .none ∉ outputs h := by
  rcases phase S.registered S.hist S.host (fun _ => S.protocol) with ⟨rfl, hm⟩ | hp
  · injection hm with hm; subst hm; exact absurd rfl hc
  · rcases hp with ⟨_, h1, h2⟩ | ⟨hO, _⟩
    · exact ⟨h1, h2⟩
    · exact absurd hO.stack hc

/-- `stop` ends everything at once: no instruction is executed after it, and the decision is the one
of the actions before it. -/
theorem stop_ends {cfg : Cfg W V P} {w h1 h2 c c' o}
    (S : Session cfg w (h1 ++ .pass c :: .output o :: h2) c') (hf : fetch c = some .stop)
    (hl : c.numInstr < cfg.cpuLimit) :
    passes h2 = [] ∧ acts cfg (h1 ++ .pass c :: .output o :: h2) = acts cfg h1 := by
  have S' : Session cfg w ((h1 ++ [.pass c]) ++ .output o :: h2) c' := by simpa using S
  obtain ⟨c1, ha, hb⟩ := hist_split S'.hist (h1 ++ [.pass c]) o h2 rfl
  have hstep := (hist_last_pass (h1 := h1) (c := c) (o := o) (by simpa using ha)).2
  obtain ⟨fr, rest, hs⟩ := stack_of_fetch hf
  have hstack : c1.stack = [] := by
    rcases step_cases (cfg := cfg) hs with ⟨_, i, hi, hfe, ⟨hl', e⟩ | ⟨hl', e⟩⟩ | ⟨hfn, _⟩ | ⟨hfn, _⟩
    · omega
    · rw [hf] at hfe
      injection hfe with hfe
      subst hfe
      rw [e] at hstep
      exact (finish_ret hstep).1.1
    · rw [hf] at hfn; simp at hfn
    · rw [hf] at hfn; simp at hfn
  obtain ⟨_, i1, _⟩ := S'.ended ha hb hstack
  refine ⟨i1, ?_⟩
  unfold acts
  rw [passes_append, show passes (.pass c :: .output o :: h2) = c :: passes h2 from rfl, i1]
  have : actOf cfg c = none := by unfold actOf; rw [hf]; simp
  simp [this]

/-! A session with a delegated test, a copy filed and flags set. -/

def ex1 : List DInstr :=
  [.require [.known "fileinto"], askTest true, .jz 4, fileTo "Lists" true, keepI ["\\Seen"],
   .forEveryPartPush, .forEveryPart 8, .jmp 6, .stop, .discard]

example : sees [start ex1, .false, .true, .true] = some
    [.event (.query "mailboxexists"), .event (.fileInto "Lists" [] 0), .event (.keep ["\\Seen"] 0),
     .none] := by decide

example : ((play demo (Ctx.new []) [start ex1, .false, .true, .true]).map fun r => acts demo r.1)
    = some [.fileInto true, .keep ["\\Seen"]] := by decide


/-! ## C09: the implicit keep -/

/-- The actions that cancel the implicit keep. -/
def Act.cancels : Act → Prop
  | .discard => True
  | .reject => True
  | .fileInto false => True
  | .redirect false => True
  | _ => False

theorem verdict_keep {l : List Act} (h : ∀ a ∈ l, ¬ a.cancels) : ∀ {d}, (∃ fl, d = some (.keep fl)) →
    ∃ fl, l.foldl judge d = some (.keep fl) := by
  induction l with
  | nil => intro d hd; exact hd
  | cons a l ih =>
    rintro d ⟨fl, rfl⟩
    refine ih (fun b hb => h b (by simp [hb])) ?_
    have := h a (by simp)
    cases a with
    | keep fl' => exact ⟨fl', rfl⟩
    | discard => exact absurd trivial this
    | reject => exact absurd trivial this
    | fileInto c =>
      cases c
      · exact absurd trivial this
      · exact ⟨fl, rfl⟩
    | redirect c =>
      cases c
      · exact absurd trivial this
      · exact ⟨fl, rfl⟩

/-- **C09.** If a session has come to its end and no discard, reject, plain fileinto or successful
plain redirect was executed, the host has been told exactly once to keep the message (and not to
discard it). -/
theorem implicit_keep {cfg : Cfg W V P} {w h c} (S : Session cfg w h c) (hend : .none ∈ outputs h)
    (hno : ∀ a ∈ acts cfg h, ¬ a.cancels) :
    ∃ fl id, .keep fl id ∈ events h ∧ dispositions (events h) = [.keep fl id] := by
  obtain ⟨fl, hv⟩ := verdict_keep hno ⟨[], rfl⟩
  have hc := disposition_decided S hend
  unfold verdict at hc
  rw [hv] at hc
  obtain ⟨fl', id, he, _⟩ := hc
  refine ⟨fl', id, ?_, he⟩
  have : Event.keep fl' id ∈ dispositions (events h) := by rw [he]; simp
  exact (List.mem_filter.mp this).1

/-- A script that only files a copy, in an endless loop: the CPU limit is reported and the message
is kept. -/
example : (sees (start [fileTo "A" true, .jmp 1] :: List.replicate 5 .true)) = some
    [.event (.fileInto "A" [] 0), .error .cpuLimit, .event (.keep [] 0), .none, .none, .none] := by
  decide

/-- A script with more than 256 local variables is not run at all: `run` returns `None` at once and
no `Keep` event is ever produced. -/
theorem oversized_script_no_keep (n : Nat) :
    outputs (((play demo (Ctx.new []) (.script ⟨false, ""⟩ ⟨[keepI []], 257, 0⟩ ::
      List.replicate n .true)).map Prod.fst).getD []) = List.replicate (n + 1) .none := by
  have h0 : ∀ (n : Nat) (c : Ctx (List String) Nat String), c.stack = [] → c.queue = [] →
      ∃ r, play demo c (List.replicate n .true) = some r ∧ outputs r.1 = List.replicate n .none := by
    intro n
    induction n with
    | zero => intro c _ _; exact ⟨([], c), rfl, rfl⟩
    | succ n ih =>
      intro c hs hq
      obtain ⟨r, h1, h2⟩ := ih { c with testResult := c.testResult ^^ Bool.true } hs hq
      refine ⟨(.input .true :: .output .none :: r.1, r.2), ?_, ?_⟩
      · rw [List.replicate_succ]
        unfold play
        simp [applyInput, enter, hs, hq]
        simpa [hs, hq] using h1
      · simpa [outputs, List.replicate_succ] using h2
  obtain ⟨r, h1, h2⟩ := h0 n (Ctx.new []) rfl rfl
  unfold play
  have : applyInput demo (Ctx.new []) (.script ⟨false, ""⟩ ⟨[keepI []], 257, 0⟩) = Ctx.new [] := by
    simp [applyInput, maxMatchVars, maxLocalVars]
  rw [this]
  have he : enter (Ctx.new [] : Ctx (List String) Nat String) = .ret .none (Ctx.new []) := rfl
  rw [he]
  simp only [h1, Option.map_some, Option.getD_some]
  simpa [outputs, List.replicate_succ] using h2

/-- The explicit keep of RFC 5228 is only partly respected: it survives later copies, and later
plain `fileinto` if it has flags, but not a later discard, reject or plain redirect. -/
theorem explicit_keep_partial {cfg : Cfg W V P} {w h c} (S : Session cfg w h c)
    (hend : .none ∈ outputs h) {pre post fl} (ha : acts cfg h = pre ++ .keep fl :: post)
    (hno : ∀ a ∈ post, a ≠ .discard ∧ a ≠ .reject ∧ a ≠ .redirect false
      ∧ (a = .fileInto false → fl ≠ []))
    (hk : ∀ fl', .keep fl' ∉ post) :
    ∃ fl' id, dispositions (events h) = [.keep fl' id] ∧ (fl ≠ [] → fl' = fl) := by
  have hv : verdict (acts cfg h) = some (.keep fl) := by
    rw [ha]
    unfold verdict
    rw [List.foldl_append, List.foldl_cons]
    generalize List.foldl judge (some (.keep [])) pre = d
    simp only [judge]
    clear ha
    induction post with
    | nil => rfl
    | cons a l ih =>
      rw [List.foldl_cons]
      have h1 := hno a (by simp)
      have : judge (some (.keep fl)) a = some (.keep fl) := by
        cases a with
        | keep f => exact absurd (by simp) (hk f)
        | discard => exact absurd rfl h1.1
        | reject => exact absurd rfl h1.2.1
        | fileInto c =>
          cases c
          · have := h1.2.2.2 rfl
            cases fl with
            | nil => exact absurd rfl this
            | cons x xs => rfl
          · rfl
        | redirect c =>
          cases c
          · exact absurd rfl h1.2.2.1
          · rfl
      rw [this]
      exact ih (fun b hb => hno b (by simp [hb])) (fun f hf => hk f (by simp [hf]))
  have hc := disposition_decided S hend
  rw [hv] at hc
  obtain ⟨fl', id, he, h2, _⟩ := hc
  exact ⟨fl', id, he, h2⟩

/-- The three ways in which an explicit `keep` is lost. -/
theorem explicit_keep_lost :
    sees [start [keepI [], .discard], .true] = some [.event .discard, .none]
    ∧ sees [start [keepI [], fileTo "A" false], .true, .true]
        = some [.event (.fileInto "A" [] 0), .none, .none]
    ∧ sees [start [keepI ["\\Seen"], sendTo "a@b.c" false], .true, .true]
        = some [.event (.send .redirect "a@b.c" 0), .none, .none] := by
  decide

/-! ## C10: errors -/

/-- **C10.** Once a run-time error has been reported, no instruction is executed any more; the
following calls of `run` return a list `l` of events and then only `None`; no disposition was
reported before, and those in `l` carry out the verdict over the actions executed so far. -/
theorem error_then_disposition {cfg : Cfg W V P} {w h1 er h2 c}
    (S : Session cfg w (h1 ++ .output (.error er) :: h2) c) :
    passes h2 = [] ∧ dispositions (events h1) = [] ∧
      ∃ l : List (Event P), outputs h2 = drainOutputs l (outputs h2).length
        ∧ CarriesOut cfg (verdict (acts cfg h1)) (dispositions l) := by
  obtain ⟨c1, ha, hb⟩ := hist_split S.hist h1 (.error er) h2 rfl
  -- the error was reported by a pass
  obtain ⟨c2, h0, rfl⟩ : ∃ c2 h0, h1 = h0 ++ [.pass c2] := by
    generalize hk : h1 ++ [Label.output (.error er)] = k at ha
    generalize hm : Mode.waiting c1 = m at ha
    cases ha with
    | start => simp at hk
    | @feedRet h c2 i o2 c3 _ he =>
      have : h1 ++ [Label.output (.error er)] = (h ++ [.input i]) ++ [.output o2] := by simpa using hk
      have := (List.append_inj' this rfl).2
      simp only [List.cons.injEq, and_true, Label.output.injEq] at this
      subst this
      rcases enter_ret he with ⟨_, _, _, h, _⟩ | ⟨_, _, h, _⟩ <;> simp at h
    | feedGo => simp at hm
    | pass => simp at hm
    | @passRet h c2 o2 c3 _ he =>
      have : h1 ++ [Label.output (.error er)] = (h ++ [.pass c2]) ++ [.output o2] := by simpa using hk
      exact ⟨c2, h, (List.append_inj' this rfl).1⟩
  obtain ⟨hrun, hstep⟩ := hist_last_pass (h1 := h0) (c := c2) (o := .error er) (by simpa using ha)
  have hstack := step_error hstep
  obtain ⟨hO, i1, i2⟩ := S.ended ha hb hstack
  have hact : acts cfg ((h0 ++ [.pass c2]) ++ [.output (.error er)]) = acts cfg (h0 ++ [.pass c2]) :=
    acts_none _ _ _ rfl
  have hev : events ((h0 ++ [.pass c2]) ++ [.output (.error er)]) = events (h0 ++ [.pass c2]) := by
    rw [events_append]; simp [events]
  have hd : dispositions (events (h0 ++ [.pass c2])) = [] := by
    rw [events_append]
    have hpre : Protocol (h0 ++ [.pass c2]) :=
      protocol_prefix (b := .output (.error er) :: h2) (by simpa using S.protocol) (by simp)
    have hp0 : Protocol h0 := by
      rcases protocol_inv hpre with ⟨_, n, s, h, _⟩ | ⟨h, _⟩
      · simp at h
      · exact h
    rcases phase S.registered hrun (fun s hs => S.host s (by
        rw [scriptsOf_append, scriptsOf_append]
        simp [hs])) (fun _ => hp0) with ⟨_, h⟩ | ⟨_, h, _⟩
    · simp at h
    · simpa [events] using h
  refine ⟨i1, hd, c1.queue, i2, ?_⟩
  have := hO.carried
  rw [hact, hev, hd] at this
  simpa using this

/-- The implicit keep after an error in an include that is too deep. -/
example : sees [start [.include false false (fun _ => some ⟨false, "x"⟩)],
      .script ⟨false, "x"⟩ (script [fileTo "A" true, .include false false (fun _ => some ⟨false, "x"⟩)]),
      .true, .true, .true, .true, .true]
    = some [.event (.includeScript ⟨false, "x"⟩ false), .event (.fileInto "A" [] 0),
        .event (.fileInto "A" [] 0), .error .tooManyIncludes, .event (.keep [] 0), .none, .none] := by
  decide

/-! ## C11: the CPU limit -/

/-- **C11 (1).** Every call of `run` returns. -/
theorem run_returns (cfg : Cfg W V P) (c : Ctx W V P) (i : Input W V P) :
    ∃ o c', run cfg c i = some (o, c') := by
  unfold run
  split
  · exact ⟨_, _, rfl⟩
  · exact loop_total _ _ _ (le_refl _)

/-- The number of instructions fetched in a session. -/
def fetched (h : List (Label W V P)) : Nat := (passes h).countP fun c => (fetch c).isSome

/-- The number of times the CPU limit was reported. -/
def limitErrors (h : List (Label W V P)) : Nat :=
  (outputs h).countP fun | .error .cpuLimit => true | _ => false

def modeCtx : Mode W V P → Ctx W V P
  | .waiting c => c
  | .running c => c

theorem numInstr_input (cfg : Cfg W V P) (c : Ctx W V P) (i) :
    (applyInput cfg c i).numInstr = c.numInstr := by
  cases i with
  | script n s => simp only [applyInput]; split <;> rfl
  | _ => rfl

theorem fetched_append (a b : List (Label W V P)) : fetched (a ++ b) = fetched a + fetched b := by
  simp [fetched]

theorem limitErrors_append (a b : List (Label W V P)) :
    limitErrors (a ++ b) = limitErrors a + limitErrors b := by simp [limitErrors]

theorem step_numInstr {cfg : Cfg W V P} {c : Ctx W V P} :
    (∀ c', step cfg c = .cont c' → c'.numInstr = c.numInstr + (if (fetch c).isSome then 1 else 0)
      ∧ ((fetch c).isSome → c.numInstr < cfg.cpuLimit))
    ∧ (∀ o c', step cfg c = .ret o c' →
        c'.numInstr = c.numInstr + (if (fetch c).isSome then 1 else 0)
        ∧ ((fetch c).isSome → c.numInstr < cfg.cpuLimit ∨ o = .error .cpuLimit)) := by
  cases hs : c.stack with
  | nil => simp [step, hs, fetch]
  | cons fr rest =>
    rcases step_cases (cfg := cfg) hs with ⟨_, i, hi, hfe, ⟨hl', e⟩ | ⟨hl', e⟩⟩ | ⟨hfe, _, e⟩ | ⟨hfe, _, e⟩
    · rw [e, hfe]
      refine ⟨by simp, ?_⟩
      intro o c' h
      injection h with h1 h2
      subst h2
      refine ⟨?_, fun _ => Or.inr h1.symm⟩
      rw [(finishLoop_spec ..).2.2.1]
      simp
    · rw [e, hfe]
      constructor
      · intro c' h
        refine ⟨?_, fun _ => hl'⟩
        rcases exec_cont h with ⟨_, h2, _⟩ | ⟨s, rfl⟩ | ⟨fr', rest', h1, _, rfl⟩
        · rw [h2]; simp
        · simp [pushScript]
        · simp
      · intro o c' h
        refine ⟨?_, fun _ => Or.inl hl'⟩
        rw [(exec_ret h).1]; simp
    · rw [e, hfe]
      constructor
      · intro c' h
        unfold leave at h
        rw [hs] at h
        simp only at h
        split at h
        · exact absurd h (finish_not_cont _ _ _)
        · simp only [Step.cont.injEq] at h
          subst h
          simp
      · intro o c' h
        rw [(leave_ret h).2.2.1]; simp
    · rw [e, hfe]
      refine ⟨by simp, ?_⟩
      intro o c' h
      injection h with h1 h2
      subst h2
      simp

/-- The interpreter's counter is the number of instructions fetched. -/
theorem counter {cfg : Cfg W V P} {w : W} {h m} (hh : Hist cfg (Ctx.new w) h m) :
    (modeCtx m).numInstr = fetched h ∧ fetched h ≤ cfg.cpuLimit + limitErrors h := by
  have key : ∀ h m, Hist cfg (Ctx.new w) h m → (modeCtx m).numInstr = fetched h ∧
      ∃ e, fetched h = e + limitErrors h ∧ e ≤ cfg.cpuLimit := by
    intro h m hh
    induction hh with
    | start => exact ⟨rfl, 0, rfl, by omega⟩
    | @feedRet h c i o c' hh he ih =>
      obtain ⟨h1, e, h2, h3⟩ := ih
      have hf : fetched ([.input i, .output o] : List (Label W V P)) = 0 := rfl
      rw [fetched_append, limitErrors_append, hf]
      rcases enter_ret he with ⟨ev, q, _, rfl, rfl⟩ | ⟨_, _, rfl, rfl⟩
      · refine ⟨?_, e, by simpa [limitErrors, outputs] using h2, h3⟩
        have := numInstr_input cfg c i
        simp only [modeCtx] at h1 ⊢
        omega
      · refine ⟨?_, e, by simpa [limitErrors, outputs] using h2, h3⟩
        have := numInstr_input cfg c i
        simp only [modeCtx] at h1 ⊢
        omega
    | @feedGo h c i c' hh he ih =>
      obtain ⟨h1, e, h2, h3⟩ := ih
      have hf : fetched ([.input i] : List (Label W V P)) = 0 := rfl
      have hg : limitErrors ([.input i] : List (Label W V P)) = 0 := rfl
      rw [fetched_append, limitErrors_append, hf, hg]
      obtain ⟨rfl, _⟩ := enter_cont he
      refine ⟨?_, e, by omega, h3⟩
      have := numInstr_input cfg c i
      simp only [modeCtx] at h1 ⊢
      omega
    | @pass h c c' hh he ih =>
      obtain ⟨h1, e, h2, h3⟩ := ih
      obtain ⟨h4, h5⟩ := step_numInstr.1 c' he
      have hf : fetched ([.pass c] : List (Label W V P)) = if (fetch c).isSome then 1 else 0 := by
        cases hc : fetch c <;> simp [fetched, passes, hc]
      have hg : limitErrors ([.pass c] : List (Label W V P)) = 0 := rfl
      rw [fetched_append, limitErrors_append, hf, hg]
      simp only [modeCtx] at h1 ⊢
      cases hc : fetch c with
      | none =>
        simp only [hc, Option.isSome_none, Bool.false_eq_true, if_false] at h4 ⊢
        exact ⟨by omega, e, by omega, h3⟩
      | some i =>
        simp only [hc, Option.isSome_some, if_true] at h4 h5 ⊢
        have := h5 trivial
        exact ⟨by omega, e + 1, by omega, by omega⟩
    | @passRet h c o c' hh he ih =>
      obtain ⟨h1, e, h2, h3⟩ := ih
      obtain ⟨h4, h5⟩ := step_numInstr.2 o c' he
      have hf : fetched ([.pass c, .output o] : List (Label W V P))
          = if (fetch c).isSome then 1 else 0 := by
        cases hc : fetch c <;> simp [fetched, passes, hc]
      rw [fetched_append, limitErrors_append, hf]
      simp only [modeCtx] at h1 ⊢
      cases hc : fetch c with
      | none =>
        simp only [hc, Option.isSome_none, Bool.false_eq_true, if_false] at h4 ⊢
        have hg : limitErrors ([.pass c, .output o] : List (Label W V P)) = 0 := by
          cases hs : c.stack with
          | nil =>
            simp only [step, hs] at he
            injection he with he _; subst he; rfl
          | cons fr rest =>
            rcases step_cases (cfg := cfg) hs with ⟨_, i, hi, hfe, _⟩ | ⟨hfe, _, e'⟩ | ⟨hfe, _, e'⟩
            · rw [hc] at hfe; simp at hfe
            · rw [e'] at he
              have hne : ∀ er, o ≠ .error er := by
                rintro er rfl
                unfold leave at he
                rw [hs] at he
                simp only at he
                split at he
                · unfold finish at he
                  split at he <;> (injection he with h1 h2; simp at h1)
                · simp at he
              cases o with
              | error er => exact absurd rfl (hne er)
              | _ => rfl
            · rw [e'] at he
              injection he with he _; subst he; rfl
        rw [hg]
        exact ⟨by omega, e, by omega, h3⟩
      | some i =>
        simp only [hc, Option.isSome_some, if_true] at h4 h5 ⊢
        have hb : limitErrors ([.pass c, .output o] : List (Label W V P)) ≤ 1 := by
          unfold limitErrors
          exact List.countP_le_length.trans (by simp [outputs])
        rcases h5 trivial with h5 | rfl
        · -- executed
          by_cases hg : limitErrors ([.pass c, .output o] : List (Label W V P)) = 0
          · rw [hg]
            exact ⟨by omega, e + 1, by omega, by omega⟩
          · exact ⟨by omega, e, by omega, h3⟩
        · have hg : limitErrors ([.pass c, .output (.error .cpuLimit)] : List (Label W V P)) = 1 := rfl
          rw [hg]
          exact ⟨by omega, e, by omega, h3⟩
  obtain ⟨h1, e, h2, h3⟩ := key h m hh
  exact ⟨h1, by omega⟩

/-- **C11 (2).** Whatever the scripts and the host do, the number of instructions executed in a
session (those fetched, minus those refused with `CPULimitReached`) never exceeds `cpu_limit`. -/
theorem cpu_limit {cfg : Cfg W V P} {w : W} {h m} (hh : Hist cfg (Ctx.new w) h m) :
    fetched h - limitErrors h ≤ cfg.cpuLimit := by
  have := (counter hh).2
  omega

/-- **C11 (3).** When `cpu_limit` instructions have been executed and there is another one, it is
not executed: `CPULimitReached` is reported and all scripts are dropped. -/
theorem cpu_limit_reported {cfg : Cfg W V P} {w : W} {h c i}
    (hh : Hist cfg (Ctx.new w) h (.running c)) (hn : cfg.cpuLimit ≤ fetched h)
    (hf : fetch c = some i) :
    ∃ c', step cfg c = .ret (.error .cpuLimit) c' ∧ c'.stack = [] := by
  have h1 : c.numInstr = fetched h := (counter hh).1
  obtain ⟨fr, rest, hs⟩ := stack_of_fetch hf
  rcases step_cases (cfg := cfg) hs with ⟨_, i, hi, hfe, ⟨hl', e⟩ | ⟨hl', e⟩⟩ | ⟨hfe, _, e⟩ | ⟨hfe, _, e⟩
  · exact ⟨_, e, (finishLoop_spec ..).1⟩
  · omega
  · rw [hf] at hfe; simp at hfe
  · rw [hf] at hfe; simp at hfe

/-- An endless loop. -/
example : ((play { demo with cpuLimit := 10 } (Ctx.new []) [start [.jmp 0]]).map fun r =>
      (fetched r.1, limitErrors r.1, outputs r.1))
    = some (11, 1, [.error .cpuLimit]) := by decide

/-! ## C15: capabilities -/

/-- **C15.** When a `require` is reached that lists a capability which is not allowed, `run` reports
the first such capability (as not supported if it is unknown, as not allowed otherwise), and no
instruction is executed after it. -/
theorem require_enforced {cfg : Cfg W V P} {w h1 h2 c c' o caps}
    (S : Session cfg w (h1 ++ .pass c :: .output o :: h2) c')
    (hf : fetch c = some (.require caps)) (hl : c.numInstr < cfg.cpuLimit)
    (hk : ∃ k ∈ caps, cfg.allowed k = false) :
    (∃ pre k post, caps = pre ++ k :: post ∧ (∀ x ∈ pre, cfg.allowed x = true)
      ∧ cfg.allowed k = false
      ∧ o = .error (match k with | .other n => .capNotSupported n | .known n => .capNotAllowed (.known n)))
    ∧ passes h2 = [] := by
  have S' : Session cfg w ((h1 ++ [.pass c]) ++ .output o :: h2) c' := by simpa using S
  obtain ⟨c1, ha, hb⟩ := hist_split S'.hist (h1 ++ [.pass c]) o h2 rfl
  have hstep := (hist_last_pass (h1 := h1) (c := c) (o := o) (by simpa using ha)).2
  obtain ⟨fr, rest, hs⟩ := stack_of_fetch hf
  rcases step_cases (cfg := cfg) hs with ⟨_, i, hi, hfe, ⟨hl', e⟩ | ⟨hl', e⟩⟩ | ⟨hfn, _⟩ | ⟨hfn, _⟩
  · omega
  · rw [hf] at hfe
    injection hfe with hfe
    subst hfe
    rw [e] at hstep
    simp only [exec] at hstep
    cases hm : missingCap cfg caps with
    | none =>
      exfalso
      obtain ⟨k, hk1, hk2⟩ := hk
      unfold missingCap at hm
      rw [List.find?_eq_none] at hm
      exact hm k hk1 (by simp [hk2])
    | some k =>
      rw [hm] at hstep
      simp only at hstep
      injection hstep with h3 h4
      subst h3
      refine ⟨?_, ?_⟩
      · unfold missingCap at hm
        rw [List.find?_eq_some_iff_append] at hm
        obtain ⟨hk', pre, post, h5, h6⟩ := hm
        refine ⟨pre, k, post, h5, ?_, by simpa using hk', ?_⟩
        · intro x hx; simpa using h6 x hx
        · cases k <;> rfl
      · exact (S'.ended ha hb (by rw [← h4]; exact (finishLoop_spec ..).1)).2.1
  · rw [hf] at hfn; simp at hfn
  · rw [hf] at hfn; simp at hfn

example : sees [start [.require [.known "fileinto", .other "vnd.x", .known "editheader"], .discard],
      .true, .true]
    = some [.error (.capNotSupported "vnd.x"), .event (.keep [] 0), .none] := by decide

end Sieve.Vm
