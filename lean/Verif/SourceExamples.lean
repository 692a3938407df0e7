import Verif.SourceProps

/-!
# C05, C06, C07: concrete scripts, and what goes wrong with `continue`
-/

namespace Sieve.Source

open Sieve.Vm Sieve.Compile

/-- The demonstration host of `VmProps`, without registered scripts. -/
def bare : Cfg (List String) Nat String := { demo with registered := fun _ => none }

abbrev DAct := { i : DInstr // Plain i }
abbrev DTest := View (List String) Nat → TestOut (List String) Nat String
abbrev DExpr := View (List String) Nat → ExprOut (List String) Nat String

def demoI : Interp bare DAct DTest DExpr where
  act := Subtype.val
  plain := Subtype.property
  test := id
  expr := id
  bad := fun _ => ""
  notV := fun n => if n = 0 then 1 else 0
  not_spec := by
    intro v
    by_cases h : v = 0 <;> simp [h, bare, demo]

/-- Files the message into the mailbox named after the current part. -/
def filePart : DAct := ⟨.fileInto true (fun v => s!"part {v.part}") (fun _ => []), trivial⟩
def fileA (s : String) : DAct := ⟨fileTo s true, trivial⟩
/-- A counter kept in the world. -/
def tick : DAct := ⟨.edit fun v => ("tick" :: v.world, false), trivial⟩
def fewer (n : Nat) : DExpr := fun v => .done (if v.world.length < n then 1 else 0) v.world
def isPart (n : Nat) : DTest := fun v => ⟨.bool (v.part == n), v.matchv, v.world, false⟩

abbrev DBlk := Blk DAct DTest DExpr

/-- ```
while <fewer than 2 ticks> {
  tick;
  foreverypart { if not anyof(false, part is 2) { fileinto …; } else { break; } }
  if <part is 0> { continue; }
  fileinto "not reached";
}
``` -/
def exBlk : DBlk :=
  .cons (.loop (fewer 2)
    (.cons (.act [tick])
      (.cons (.parts none (.cons (.cond (.els (.not (.any (.cons (.atom .fls) (.one (.atom (.leaf (isPart 2)))))))
          (.cons (.act [filePart]) .nil) none (.cons (.brk none) .nil) none)) .nil) none)
        (.cons (.cond (.one (.atom (.leaf (isPart 0))) (.cons .cont .nil) none))
          (.cons (.act [fileA "not reached"]) .nil)))) none) .nil

def exLim : Limits := ⟨15, 15, 3⟩

theorem exBlk_ok : exBlk.Ok exLim [] := by
  simp [exBlk, exLim, Blk.Ok, Stmt.Ok, Chain.Ok, TestE.depth, Tests.depth, innermost, innerWhile, partsCount]

theorem exBlk_conts : exBlk.Conts [] := by
  simp [exBlk, Blk.Conts, Stmt.Conts, Chain.Conts, innermost]

def exScript : Script (List String) Nat String := ⟨(exBlk.code [] 0).map demoI.lower, 0, 0⟩

example : FromSource exLim demoI (fun _ => exBlk) exScript :=
  ⟨exBlk_ok, exBlk_conts, _, compile_render exBlk exBlk_ok, rfl⟩

/-- What the host sees. -/
def bareSees (is : List (Input (List String) Nat String)) : Option (List (Out String)) :=
  (play bare (Ctx.new []) is).map fun r => outputs r.1

example : bareSees [.script ⟨false, ""⟩ exScript, .true, .true, .true] = some
    [.event (.fileInto "part 1" [] 0), .event (.fileInto "part 1" [] 0), .event (.keep ["tick", "tick"] 0), .none] := by
  decide

/-! ### All hypotheses of `runs_as_written` together -/

theorem protocol_single {W V P : Type} {s : Script W V P} {n} (ha : Accepted s) :
    ∀ (h : List (Label W V P)), (∀ l ∈ h, ∀ n s, l ≠ .input (.script n s)) → Protocol (.input (.script n s) :: h) := by
  intro h
  induction h using List.reverseRecOn with
  | nil => intro _; exact .first n ha
  | append_singleton h l ih =>
    intro hl
    have := Protocol.other (ih fun x hx => hl x (by simp [hx])) (hl l (by simp))
    simpa using this

def isScriptInput {W V P : Type} : Label W V P → Bool
  | .input (.script _ _) => true
  | _ => false

theorem play_head {W V P : Type} {cfg : Cfg W V P} {c i is r} (h : play cfg c (i :: is) = some r) :
    ∃ l, r.1 = .input i :: l := by
  unfold play at h
  split at h
  · rw [Option.map_eq_some_iff] at h
    obtain ⟨r', _, rfl⟩ := h
    exact ⟨_, rfl⟩
  · split at h
    · cases h
    · rw [Option.map_eq_some_iff] at h
      obtain ⟨r', _, rfl⟩ := h
      exact ⟨_, rfl⟩

example : ∃ h c s, Hist bare (Ctx.new []) h (.waiting c) ∧ (outputs h).length = 4 ∧
    SHist demoI (fun _ => exBlk) [] (io h) s ∧ Agree (.waiting c) s := by
  have hsome : (play bare (Ctx.new []) [.script ⟨false, ""⟩ exScript, .true, .true, .true]).isSome = true := by decide
  obtain ⟨⟨h, c⟩, hp⟩ := Option.isSome_iff_exists.mp hsome
  have hh : Hist bare (Ctx.new []) h (.waiting c) := play_hist _ .start hp
  have hfact : ((play bare (Ctx.new []) [.script ⟨false, ""⟩ exScript, .true, .true, .true]).all fun r =>
      (r.1.tail.all fun l => !isScriptInput l) && (outputs r.1).length == 4) = true := by decide
  obtain ⟨t, ht⟩ := play_head hp
  simp only at ht
  subst ht
  rw [hp] at hfact
  simp only [Option.all_some, List.tail_cons, Bool.and_eq_true, List.all_eq_true, Bool.not_eq_true', beq_iff_eq] at hfact
  obtain ⟨h1, h3⟩ := hfact
  have h1' : ∀ l ∈ t, ∀ n s, l ≠ .input (.script n s) := by
    rintro l hl n s rfl
    have := h1 _ hl
    simp [isScriptInput] at this
  have hsc : ∀ s ∈ scriptsOf (.input (.script ⟨false, ""⟩ exScript) :: t), FromSource exLim demoI (fun _ => exBlk) s := by
    intro s hs
    simp only [scriptsOf, List.mem_filterMap, List.mem_cons] at hs
    obtain ⟨l, rfl | hl, hx⟩ := hs
    · simp only [Option.some.injEq] at hx
      subst hx
      exact ⟨exBlk_ok, exBlk_conts, _, compile_render exBlk exBlk_ok, rfl⟩
    · split at hx
      · exact absurd rfl (h1' _ hl _ _)
      · cases hx
  obtain ⟨s, k1, k2⟩ := runs_as_written (lim := exLim) (I := demoI) (src := fun _ => exBlk) hh
    (fun _ => protocol_single ⟨by decide, by decide⟩ t h1') hsc (by simp [bare])
  exact ⟨_, _, s, hh, h3, k1, k2⟩

/-! ## C05 -/

/-- `anyof(not allof(true, test), false)`, with a test that fails. -/
def exTest : TestE DAct DTest DExpr :=
  .any (.cons (.not (.all (.cons (.atom .tru) (.one (.atom (.leaf (constTest false))))))) (.one (.atom .fls)))

def exCode : List (Op DAct DTest DExpr) := [.fls, .jnz 3, .test (constTest false) true, .jnz 5, .fls]

theorem exTest_parsed : parseTest 15 (exTest.toks ++ [.copen]) [] = some ([.copen], exCode ++ [.jz maxPos]) :=
  parse_render (maxTests := 15) exTest [] _ (by simp [exTest, TestE.depth, Tests.depth])

example (m : Ctx (List String) Nat String) (fr st tail) (hs : m.stack = fr :: st) (hp : m.pos = 0) (hn : m.numInstr ≤ 95)
    (hc : fr.script.instrs = (exCode ++ tail).map demoI.lower) :
    ∃ m', Passes bare m m' ∧ m'.pos = 5 ∧ m'.testResult = true :=
  test_value demoI (e := exTest) (v := fun | .tru => true | _ => false)
    (by simp [exTest, TestE.depth, Tests.depth]) exTest_parsed hs hc hp (by
      intro a ha c
      simp only [exTest, TestE.atoms, Tests.atoms, List.mem_append, List.mem_singleton] at ha
      rcases ha with (rfl | rfl) | rfl <;> exact ⟨_, rfl, rfl⟩) (by simp [exCode, bare, demo]; omega)

/-! ## C07: what goes wrong -/

section
variable {A T E : Type}

/-- `while e { while f { continue; a } }`: the compiler drops the `continue`. -/
theorem continue_dropped (e f : E) (a : A) :
    compile exLim ([.kwhile e, .copen, .kwhile f, .copen, .kcont, .act [a], .cclose none, .cclose none] : List (Tok A T E)) =
      some [.loop e 5, .loop f 4, .plain a, .jmp 1, .jmp 0] ∧
    compile exLim ([.kwhile e, .copen, .kwhile f, .copen, .act [a], .cclose none, .cclose none] : List (Tok A T E)) =
      some [.loop e 5, .loop f 4, .plain a, .jmp 1, .jmp 0] := by
  constructor <;> rfl

/-- `while e { while f { while g { continue; } } }` is rejected. -/
theorem continue_rejected (e f g : E) :
    compile exLim ([.kwhile e, .copen, .kwhile f, .copen, .kwhile g, .copen, .kcont, .cclose none, .cclose none,
      .cclose none] : List (Tok A T E)) = none := rfl

end

/-- `while <fewer than 1 tick> { tick; foreverypart { continue; } }  fileinto …;` -/
def leakBlk : DBlk :=
  .cons (.loop (fewer 1) (.cons (.act [tick]) (.cons (.parts none (.cons .cont .nil) none) .nil)) none)
    (.cons (.act [filePart]) .nil)

def leakScript : Script (List String) Nat String := ⟨(leakBlk.code [] 0).map demoI.lower, 0, 0⟩

theorem leak_compiled : compile exLim leakBlk.toks = some (leakBlk.code [] 0) :=
  compile_render _ (by simp [leakBlk, exLim, Blk.Ok, Stmt.Ok, innerWhile, partsCount])

/-- `continue` out of a `foreverypart` loop keeps its part: the script still works on part 1 after the
loops.  In the structured script the part is that of the message, 0. -/
theorem continue_keeps_part :
    bareSees [.script ⟨false, ""⟩ leakScript] = some [.event (.fileInto "part 1" [] 0)] := by decide

/-- The first answer of a structured script. -/
def answers {W V P A T E : Type} {cfg : Cfg W V P} (I : Interp cfg A T E) (src : Script W V P → Blk A T E) :
    Nat → Conf W V P A T E → Option (Out P)
  | 0, _ => none
  | n + 1, s =>
    match sstep I src s with
    | .cont s => answers I src n s
    | .ret o _ => some o

/-- What the script says. -/
theorem continue_should_leave_part :
    answers demoI (fun _ => leakBlk) 40 (feed bare (fun _ => leakBlk) ⟨[], Ctx.new []⟩ (.script ⟨false, ""⟩ leakScript)) =
      some (.event (.fileInto "part 0" [] 0)) := by decide

end Sieve.Source
