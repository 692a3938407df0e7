import Verif.VarsUnique
import Verif.VarsScope
import Verif.CoreExamples

/-!
# A text with variables, compiled and run
-/

namespace Sieve.Vars

open Sieve.Args Sieve.Fields Sieve.Compile Sieve.Lex Sieve.Script

def exText : List UInt8 :=
  bytes "require [\"fileinto\",\"variables\"];set \"a\" \"y\";if string \"${a}\" \"y\"{fileinto \"${A}x\";}"

theorem exText_items : IsText 100 exText [.word .Require, .bracketOpen, .str (bytes "fileinto"), .comma, .str (bytes "variables"),
    .bracketClose, .semicolon, .word .Set, .str (bytes "a"), .str (bytes "y"), .semicolon, .word .If, .word .String,
    .str (bytes "${a}"), .str (bytes "y"), .curlyOpen, .word .FileInto, .str (bytes "${A}x"), .semicolon, .curlyClose] := by
  have e : exText = bytes "require" ++ 32 :: 91 :: 34 :: (escape (bytes "fileinto") ++ 34 :: 44 :: 34 :: (escape (bytes "variables") ++
      34 :: 93 :: 59 :: (bytes "set" ++ 32 :: 34 :: (escape (bytes "a") ++ 34 :: 32 :: 34 :: (escape (bytes "y") ++ 34 :: 59 ::
      (bytes "if" ++ 32 :: (bytes "string" ++ 32 :: 34 :: (escape (bytes "${a}") ++ 34 :: 32 :: 34 :: (escape (bytes "y") ++ 34 :: 123 ::
      (bytes "fileinto" ++ 32 :: 34 :: (escape (bytes "${A}x") ++ 34 :: [59, 125]))))))))))) := by decide +kernel
  have plain : ∀ c : List UInt8, 92 ∉ c → Plain c := by
    intro c h
    refine ⟨fun u e => h (by simp [e]), fun u d v e => absurd (by simp [e]) h⟩
  rw [e]
  exact .word (by decide +kernel) ⟨32, _, rfl, by decide⟩ (.space (by decide) (.punct rfl (.str (plain _ (by decide +kernel)) (by decide +kernel)
    (.punct rfl (.str (plain _ (by decide +kernel)) (by decide +kernel) (.punct rfl (.punct rfl
    (.word (by decide +kernel) ⟨32, _, rfl, by decide⟩ (.space (by decide) (.str (plain _ (by decide +kernel)) (by decide +kernel)
    (.space (by decide) (.str (plain _ (by decide +kernel)) (by decide +kernel) (.punct rfl
    (.word (by decide +kernel) ⟨32, _, rfl, by decide⟩ (.space (by decide) (.word (by decide +kernel) ⟨32, _, rfl, by decide⟩
    (.space (by decide) (.str (plain _ (by decide +kernel)) (by decide +kernel) (.space (by decide) (.str (plain _ (by decide +kernel))
    (by decide +kernel) (.punct rfl
    (.word (by decide +kernel) ⟨32, _, rfl, by decide⟩ (.space (by decide) (.str (plain _ (by decide +kernel)) (by decide +kernel)
    (.punct rfl (.punct rfl .nil))))))))))))))))))))))))))

def exSet : Got Int := ⟨[], [.text (bytes "a"), .val (.text (bytes "y"))]⟩

def exString : Got Int := ⟨[], [.vals [.var (bytes "${a}")], .vals [.text (bytes "y")]]⟩

def exFile : Got Int := ⟨[], [.val (.var (bytes "${A}x"))]⟩

def exProg : Whole.Prog Int :=
  .cons (.act [.require [bytes "fileinto", bytes "variables"]]) <| .cons (.act [.cmd .Set exSet])
    (.cons (.cond (.one (.atom (.leaf (.test .String exString))) (.cons (.act [.cmd .FileInto exFile]) .nil) none)) .nil)

theorem exText_structure : Whole.Structure Core.exLex Written.exArgs exText exProg := by
  obtain ⟨ts, h1, h2⟩ := lex_text Core.exLex rfl exText_items
  have e : ts = [.ident .Require, .bracketOpen, .string (bytes "fileinto"), .comma, .string (bytes "variables"), .bracketClose, .semicolon,
      .ident .Set, .string (bytes "a"), .string (bytes "y"), .semicolon, .ident .If, .ident .String, .stringVar (bytes "${a}"),
      .string (bytes "y"), .curlyOpen, .ident .FileInto, .stringVar (bytes "${A}x"), .semicolon, .curlyClose] := by
    rw [lex_eq_lexN _ 200 _ _ (by decide +kernel)] at h1
    rw [← (Prod.mk.inj h1).1]
    decide +kernel
  refine ⟨_, ts, [.require [bytes "fileinto", bytes "variables"], .cmd .Set exSet, .word .If, .test .String exString, .openB,
    .cmd .FileInto exFile, .closeB], exText_items, h1, h2, (script_iff _ _ _).1 ?_, rfl⟩
  rw [e]
  decide +kernel

def exHost : Host Unit Int Nat where
  core := Core.exHost
  names := [bytes "a"]
  parseInt := fun _ => none
  showInt := fun _ => []
  parseFlt := fun _ => none
  showFlt := fun _ => []
  chars := fun b => b.map fun u => Char.ofNat u.toNat
  mod := ⟨id, id, fun c => [c], fun c => [c], fun _ _ s => s⟩
  max := 100

/-- `Variable::is_empty` -/
def isNil : Expr.Val Int → Bool
  | .str [] => true
  | _ => false

def exCfg : Vm.Cfg Unit (Expr.Val Int) Core.Place where
  cpuLimit := 100
  maxRedirects := 1
  maxOut := 3
  maxReceived := 10
  maxIncludes := 3
  allowed := fun c => c = .known "fileinto"
  registered := fun _ => none
  received := fun _ => 0
  own := Core.exCfg.own
  nested := fun _ _ _ => []
  globalFlags := Core.exCfg.globalFlags
  render := fun _ => .nowhere
  toBool := fun v => !isNil v
  isEmpty := isNil
  empty := .str []
  pushResult := fun w _ => w

theorem exNot : ∀ v, exCfg.toBool (if isNil v then .int 1 else .str []) = !exCfg.toBool v := by
  intro v
  show (!isNil (if isNil v = true then .int 1 else .str [])) = !(!isNil v)
  cases isNil v <;> rfl

def exInterp : Source.Interp exCfg (Script.Node Int) (Script.Node Int) (List UInt8) :=
  exHost.interp exCfg (fun v => if isNil v then .int 1 else .str []) exNot

def exScript : Vm.Script Unit (Expr.Val Int) Core.Place := ⟨(exProg.code [] 0).map exInterp.lower, 1, 0⟩

theorem exProg_ok : exProg.Ok ⟨9, 9, 9⟩ [] := by
  simp [exProg, Blk.Ok, Stmt.Ok, Chain.Ok, TestE.depth]

theorem exScript_text : Whole.FromText Core.exLex Written.exArgs ⟨9, 9, 9⟩ 1000 exInterp (fun _ => exProg) exScript := by
  obtain ⟨ops, h1, h2⟩ := Whole.structure_accepted (lim := ⟨9, 9, 9⟩) (maxSize := 1000) exText_structure (by decide +kernel) exProg_ok
  refine ⟨by simp [exProg, Blk.Conts, Stmt.Conts, Chain.Conts], exProg_ok, _, ops, exText_structure, h1, ?_⟩
  rw [compile_render exProg exProg_ok] at h2
  injection h2 with h2
  rw [← h2]
  rfl

theorem exSees : Sees exHost () (.node 0 []) := Core.exSees

theorem exFits : Fits exHost exCfg () := ⟨⟨Core.exFits.own, Core.exFits.flags, Core.exFits.received⟩, rfl, by decide⟩

theorem exVars : VarBlk exHost exCfg exProg := by
  refine ⟨?_, ?_, ⟨⟨⟨?_, ?_⟩, ⟨by simp [Written.Comparing, exString, Uses], _, _, rfl⟩⟩, ⟨?_, trivial⟩, rfl⟩, trivial⟩
  · intro n hn
    rw [List.mem_singleton] at hn
    subst hn
    refine ⟨⟨by simp [Core.got], by simp [Core.got]⟩, ?_⟩
    intro c hc
    simp only [seen, exHost, Core.exHost, List.mem_singleton] at hc
    simp [hc, exCfg]
  · intro n hn
    rw [List.mem_singleton] at hn
    subst hn
    exact ⟨⟨by simp [Core.got, exSet, Reads], by simp [Core.got, exSet]⟩, by simp [exSet, Uses], _, _, rfl, by decide +kernel⟩
  · intro a ha
    simp only [Core.got, exString, List.mem_cons, List.not_mem_nil, or_false] at ha
    rcases ha with rfl | rfl
    · intro s hs
      simp only [List.mem_singleton, Val.var.injEq] at hs
      subst hs
      decide +kernel
    · simp [Reads]
  · simp [Core.got, exString]
  · intro n hn
    rw [List.mem_singleton] at hn
    subst hn
    refine ⟨⟨?_, by simp [Core.got, exFile]⟩, by simp [Core.Command, exFile]⟩
    intro a ha
    simp only [Core.got, exFile, List.mem_singleton] at ha
    subst ha
    intro s hs
    injection hs with hs
    subst hs
    decide +kernel

/-- The message is filed in the folder with the name of the variable, as the host is told. -/
theorem exRun : ((Vm.play exCfg (.new ()) [.script ⟨false, ""⟩ exScript, .true, .true]).map fun r => Vm.outputs r.1) =
    some [.event (.fileInto (.folder ['y', 'x'] none none false) [] 0), .none, .none] := by
  decide +kernel

/-- The script has no `keep`. -/
theorem exKeeps {st : St Int} {b : Bool} (h : RunBlk exHost exCfg () (.node 0 []) exProg (start exHost) st b) :
    Base.KeepsLast st.core.acts := by
  have noKeep : ∀ a fl b, st.core.acts ≠ a ++ .keep fl :: b := by
    intro a fl b e
    have hk : (.keep fl : Base.Action Core.Place) ∈ st.core.acts := by rw [e]; simp
    have one : ∀ {n : Script.Node Int} {s s' : St Int} {f}, RunStmt exHost exCfg () (.node 0 []) (.act [n]) s s' f →
        Does exHost exCfg () n s s' f := by
      intro n s s' f h
      cases h with
      | act h => cases h with
        | ends h => exact h
        | cons h h' => cases h'; exact h
    have req : ∀ {ns : List (List UInt8)} {s s' : St Int} {f}, Does exHost exCfg () (.require ns) s s' f → s' = s ∧ f = false := by
      intro ns s s' f h
      cases h with
      | core h => cases h; exact ⟨rfl, rfl⟩
    have set : ∀ {s s' : St Int} {f}, Does exHost exCfg () (.cmd .Set exSet) s s' f → s'.core = s.core ∧ f = false := by
      intro s s' f h
      cases h with
      | core h => cases h
      | set _ _ => exact ⟨rfl, rfl⟩
    have file : ∀ {s s' : St Int} {f}, Does exHost exCfg () (.cmd .FileInto exFile) s s' f →
        (∃ p fl c, s'.core.acts = s.core.acts ++ [.fileinto p fl c]) ∧ f = false := by
      intro s s' f h
      cases h with
      | core h => cases h; exact ⟨⟨_, _, _, rfl⟩, rfl⟩
    cases h with
    | ends h => cases (req (one h)).2
    | cons h h' =>
      obtain ⟨rfl, -⟩ := req (one h)
      cases h' with
      | ends h => cases (set (one h)).2
      | cons h h' =>
        have hs := (set (one h)).1
        have tail : ∀ {s s' : St Int} {f}, RunStmt exHost exCfg () (.node 0 []) (.cond (.one (.atom (.leaf (.test .String exString)))
            (.cons (.act [.cmd .FileInto exFile]) .nil) none)) s s' f →
            s' = s ∨ ∃ p fl c, s'.core.acts = s.core.acts ++ [.fileinto p fl c] := by
          intro s s' f h
          cases h with
          | cond h => cases h with
            | oneNot _ => exact .inl rfl
            | one _ h => cases h with
              | ends h => exact .inr (file (one h)).1
              | cons h h' => cases h'; exact .inr (file (one h)).1
        have done : st.core.acts = [] ∨ ∃ p fl c, st.core.acts = [.fileinto p fl c] := by
          cases h' with
          | ends h =>
            rcases tail h with rfl | ⟨p, fl, c, h⟩
            · exact .inl (by rw [hs]; rfl)
            · exact .inr ⟨p, fl, c, by rw [h, hs]; rfl⟩
          | cons h h' =>
            cases h'
            rcases tail h with rfl | ⟨p, fl, c, h⟩
            · exact .inl (by rw [hs]; rfl)
            · exact .inr ⟨p, fl, c, by rw [h, hs]; rfl⟩
        rcases done with h | ⟨p, fl', c, h⟩ <;> rw [h] at hk <;> simp at hk
  intro a fl b e
  exact absurd e (noKeep a fl b)

/-- All hypotheses of `vars_text_partial` together. -/
example : ∃ r m st stopped l, Vm.Hist exCfg (.new ()) (.input (.script ⟨false, ""⟩ exScript) :: r) m ∧
    RunBlk exHost exCfg () (.node 0 []) exProg (start exHost) st stopped ∧ Core.Finally exHost.core () st.core.acts l ∧
    Base.told (Source.io r) = Base.sent st.core.acts ++ l ∧
    Base.told (Source.io r) = [.fileInto (.folder ['y', 'x'] none none false) [] 0] := by
  have hsome : (Vm.play exCfg (.new ()) [.script ⟨false, ""⟩ exScript, .true, .true]).isSome = true := by decide +kernel
  obtain ⟨⟨h, c⟩, hp⟩ := Option.isSome_iff_exists.mp hsome
  have hh : Vm.Hist exCfg (.new ()) h (.waiting c) := Vm.play_hist _ .start hp
  have hfact : ((Vm.play exCfg (.new ()) [.script ⟨false, ""⟩ exScript, .true, .true]).all fun r =>
      ((Source.io r.1.tail).all fun | .input .true | .input .false => true | .input _ => false | .output (.error _) => false | .output _ => true) &&
      ((Source.io r.1.tail).any fun | .output .none => true | _ => false) &&
      Base.told (Source.io r.1.tail) == [.fileInto (.folder ['y', 'x'] none none false) [] 0]) = true := by decide +kernel
  obtain ⟨t, ht⟩ := Source.play_head hp
  simp only at ht
  subst ht
  rw [hp] at hfact
  simp only [Option.all_some, List.tail_cons, Bool.and_eq_true, List.all_eq_true, beq_iff_eq, List.any_eq_true] at hfact
  obtain ⟨⟨h1, x, h2, h2'⟩, h3⟩ := hfact
  have hA : Base.Answers (Source.io t) := by
    intro i hi
    have := h1 _ hi
    cases i <;> simp_all
  have hC : .output (.error .cpuLimit) ∉ Source.io t := fun hi => by simpa using h1 _ hi
  have hN : .output .none ∈ Source.io t := by
    split at h2'
    · exact h2
    · cases h2'
  have hE : ∀ v, exCfg.isEmpty v = true → v = exCfg.empty := by
    intro v hv
    show v = .str []
    change isNil v = true at hv
    unfold isNil at hv
    split at hv
    · rfl
    · cases hv
  obtain ⟨st, b, h4, h5⟩ := vars_text_partial (src := fun _ => exProg) exSees exFits hE rfl hh
    ⟨by decide +kernel, by decide +kernel⟩ hA hC exScript_text (by simp [exCfg]) exVars
  obtain ⟨-, l, h6, -, h7⟩ := h5 (exKeeps h4)
  exact ⟨t, _, st, b, l, hh, h4, h6, h7 hN, h3⟩

/-- The hypotheses of `vars_unique`: there is one outcome. -/
example : ∃! p : St Int × Bool, RunBlk exHost exCfg () (.node 0 []) exProg (start exHost) p.1 p.2 := by
  have hd : ∀ k ∈ exProg.toks, TokClear exHost () k := by
    intro k hk
    simp only [exProg, Blk.toks, Stmt.toks, Chain.toks, TestE.toks, Atom.tok, List.mem_append, List.mem_cons, List.not_mem_nil, or_false] at hk
    rcases hk with rfl | rfl | rfl | rfl | rfl | rfl | rfl <;> simp [TokClear, Clear, Core.Dated]
    intro a b h
    cases h <;> simp [Uses, exSet] at *
  obtain ⟨st, b, -, -, h, -⟩ := block_runs (hnot := exNot) exSees exFits exProg (Core.structure_read exText_structure) exVars
    (rep_start exHost exFits 0 (fun _ => false))
  refine ⟨⟨st, b⟩, h, fun q hq => ?_⟩
  obtain ⟨h1, h2⟩ := vars_unique exText_structure hd hq h
  exact Prod.ext h1 h2

/-- The hypothesis of `scopes_agree`. -/
example : Scope.compile (written exHost exProg) = some (taken exHost exProg, 1) := by
  refine scopes_agree (H := exHost) (.act (.within ?_ .nil) (.act (.new (n := bytes "a") (a := false) (by decide +kernel) (by simp) (by decide +kernel) (.nil))
    (.cond ⟨?_, ?_, trivial⟩ .nil)))
  · simp [Within, registers, Core.got, Host.gotRefs]
  · decide +kernel
  · intro n hn
    rw [List.mem_singleton] at hn
    subst hn
    refine ⟨?_, ?_⟩
    · simp [registers, exFile]
    · show ∀ m ∈ exHost.gotRefs exFile, m ∈ [bytes "a"]
      decide +kernel

/-- UTF-8 -/
def utf8 (s : List Char) : List UInt8 := (String.ofList s).toByteArray.data.toList

/-- Text from UTF-8. -/
noncomputable def ofUtf8 (b : List UInt8) : List Char :=
  open Classical in if h : ∃ s, utf8 s = b then h.choose else []

theorem utf8_inj {a b : List Char} (h : utf8 a = utf8 b) : a = b := by
  have h : (String.ofList a).toByteArray.data.toList = (String.ofList b).toByteArray.data.toList := h
  have := String.ext_iff.1 (String.toByteArray_inj.1 (ByteArray.ext (Array.toList_inj.1 h)))
  simpa using this

noncomputable def exPrinter : Host Unit Int Nat :=
  { exHost with core := { Core.exHost with env := fun _ => { Written.exEnv with x := { Tests.exExt with utf8 := utf8 } } }, chars := ofUtf8 }

theorem exPrints : Prints exPrinter () := by
  have chars : ∀ s, ofUtf8 (utf8 s) = s := by
    intro s
    have h : ∃ s', utf8 s' = utf8 s := ⟨s, rfl⟩
    unfold ofUtf8
    rw [dif_pos h]
    exact utf8_inj h.choose_spec
  have nil : ofUtf8 [] = [] := chars []
  exact ⟨chars, fun _ => nil, fun _ => nil, nil⟩

/-- The hypotheses of `string_says_partial`. -/
example (σ : Store Int) : ∃ sg, Read exPrinter.names (bytes "${A}x") sg ∧
    Tests.text (exPrinter.core.env ()).x.flt (value exPrinter (σ, ()) (.var (bytes "${A}x"))) =
      exPrinter.chars (Str.textOf (heldText exPrinter () σ) sg) := by
  refine string_says_partial exPrinter () exPrints σ ?_ ?_
  · rintro ⟨p, k, code, u, b, w, rest, h, -⟩
    have : (58 : UInt8) ∈ bytes "${A}x" := by rw [h]; simp
    revert this
    decide +kernel
  · show Str.tokenize exHost.strs true _ ≠ none
    decide +kernel

/-- The hypotheses of `string_accepted_partial`: an unknown name is no error. -/
example : ∃ sg, Read exHost.names (bytes "${A}${b}x") sg := by
  refine (string_accepted_partial exHost ?_ ?_).1 (by decide +kernel)
  · rintro ⟨p, k, code, u, b, w, rest, h, -⟩
    have h : (58 : UInt8) ∈ bytes "${A}${b}x" := by rw [h]; simp
    exact absurd h (by decide +kernel)
  · rintro ⟨p, k, u, b, w, c, rest, h, -⟩
    have h : (58 : UInt8) ∈ bytes "${A}${b}x" := by rw [h]; simp
    exact absurd h (by decide +kernel)

/-- The hypotheses of `reference_says`. -/
example : value exHost (fun n => if n = bytes "a" then some (.int 5) else none, ()) (.var (bytes "${A}")) = .int 5 := by
  have h := reference_says exHost () (fun n => if n = bytes "a" then some (.int 5) else none) (n := bytes "A")
    ⟨by decide +kernel, by decide +kernel, ?_⟩ (by decide +kernel) (by decide +kernel) (by decide +kernel)
    (r := .int 5) (if_pos (by decide +kernel))
  · rw [show bytes "${A}" = [36, 123] ++ bytes "A" ++ [125] by decide +kernel]
    exact h
  · intro a b h
    have h : (58 : UInt8) ∈ bytes "A" := by rw [h]; simp
    exact absurd h (by decide +kernel)

end Sieve.Vars
