import Verif.CoreUnique

/-!
# A text of the core language, compiled and run
-/

namespace Sieve.Core

open Sieve.Args Sieve.Fields Sieve.Compile Sieve.Lex Sieve.Script

def exLex : Lex.Ext Word Int := ⟨lookupWord, fun _ => none, fun _ => [], fun _ => none, fun _ => [], 100⟩

def exText : List UInt8 := bytes "require \"fileinto\";if header :contains \"X\" \"ab\"{fileinto \"y\";}"

theorem exText_items : IsText 100 exText [.word .Require, .str (bytes "fileinto"), .semicolon, .word .If, .word .Header, .tag .Contains,
    .str (bytes "X"), .str (bytes "ab"), .curlyOpen, .word .FileInto, .str (bytes "y"), .semicolon, .curlyClose] := by
  have e : exText = bytes "require" ++ 32 :: 34 :: (escape (bytes "fileinto") ++ 34 :: 59 :: (bytes "if" ++ 32 :: (bytes "header" ++ 32 ::
      58 :: (bytes "contains" ++ 32 :: 34 :: (escape (bytes "X") ++ 34 :: 32 :: 34 :: (escape (bytes "ab") ++ 34 :: 123 ::
      (bytes "fileinto" ++ 32 :: 34 :: (escape (bytes "y") ++ 34 :: [59, 125])))))))) := by decide +kernel
  have plain : ∀ c : List UInt8, 92 ∉ c → Plain c := by
    intro c h
    refine ⟨fun u e => h (by simp [e]), fun u d v e => absurd (by simp [e]) h⟩
  rw [e]
  exact .word (by decide +kernel) ⟨32, _, rfl, by decide⟩ (.space (by decide) (.str (plain _ (by decide +kernel)) (by decide +kernel)
    (.punct rfl (.word (by decide +kernel) ⟨32, _, rfl, by decide⟩ (.space (by decide) (.word (by decide +kernel) ⟨32, _, rfl, by decide⟩
    (.space (by decide) (.tag (by decide +kernel) ⟨32, _, rfl, by decide⟩ (.space (by decide) (.str (plain _ (by decide +kernel))
    (by decide +kernel) (.space (by decide) (.str (plain _ (by decide +kernel)) (by decide +kernel) (.punct rfl
    (.word (by decide +kernel) ⟨32, _, rfl, by decide⟩ (.space (by decide) (.str (plain _ (by decide +kernel)) (by decide +kernel)
    (.punct rfl (.punct rfl .nil))))))))))))))))))

def exContains : Got Int := ⟨[(.Contains, .flag)], [.vals [.text (bytes "X")], .vals [.text (bytes "ab")]]⟩

def exProg : Whole.Prog Int :=
  .cons (.act [.require [bytes "fileinto"]]) (.cons (.cond (.one (.atom (.leaf (.test .Header exContains)))
    (.cons (.act [.cmd .FileInto ⟨[], [.val (.text (bytes "y"))]⟩]) .nil) none)) .nil)

theorem exText_structure : Whole.Structure exLex Written.exArgs exText exProg := by
  obtain ⟨ts, h1, h2⟩ := lex_text exLex rfl exText_items
  have e : ts = [.ident .Require, .string (bytes "fileinto"), .semicolon, .ident .If, .ident .Header, .tag .Contains,
      .string (bytes "X"), .string (bytes "ab"), .curlyOpen, .ident .FileInto, .string (bytes "y"), .semicolon, .curlyClose] := by
    rw [lex_eq_lexN _ 100 _ _ (by decide +kernel)] at h1
    rw [← (Prod.mk.inj h1).1]
    decide +kernel
  refine ⟨_, ts, [.require [bytes "fileinto"], .word .If, .test .Header exContains, .openB,
    .cmd .FileInto ⟨[], [.val (.text (bytes "y"))]⟩, .closeB], exText_items, h1, h2, (script_iff _ _ _).1 ?_, rfl⟩
  rw [e]
  decide +kernel

def exHost : Host Unit Int Nat where
  env := fun _ => Written.exEnv
  fuel := fun _ => 3
  size := fun _ => 100
  user := fun _ => "me@example.org".toList
  time := fun _ => none
  flagText := fun _ => []
  received := fun _ => 0
  caps := fun _ => [.known "fileinto"]

def exCfg : Vm.Cfg Unit Nat Place where
  cpuLimit := 100
  maxRedirects := 1
  maxOut := 3
  maxReceived := 10
  maxIncludes := 3
  allowed := fun c => c = .known "fileinto"
  registered := fun _ => none
  received := fun _ => 0
  own := fun w p =>
    match p with
    | .address (.address a) _ _ _ => Event.eqIgnoreAsciiCase a (exHost.user w)
    | _ => false
  nested := fun _ _ _ => []
  globalFlags := fun w => (Flags.flagsOf (exHost.flagText w)).map String.ofList
  render := fun _ => .nowhere
  toBool := fun n => n != 0
  isEmpty := fun n => n == 0
  empty := 0
  pushResult := fun w _ => w

def exInterp : Source.Interp exCfg (Script.Node Int) (Script.Node Int) (List UInt8) :=
  exHost.interp exCfg (fun n => if n = 0 then 1 else 0) (by intro v; by_cases h : v = 0 <;> simp [h, exCfg])

def exScript : Vm.Script Unit Nat Place := ⟨(exProg.code [] 0).map exInterp.lower, 0, 0⟩

theorem exProg_ok : exProg.Ok ⟨9, 9, 9⟩ [] := by
  simp [exProg, Blk.Ok, Stmt.Ok, Chain.Ok, TestE.depth]

theorem exScript_text : Whole.FromText exLex Written.exArgs ⟨9, 9, 9⟩ 1000 exInterp (fun _ => exProg) exScript := by
  obtain ⟨ops, h1, h2⟩ := Whole.structure_accepted (lim := ⟨9, 9, 9⟩) (maxSize := 1000) exText_structure (by decide +kernel) exProg_ok
  refine ⟨by simp [exProg, Blk.Conts, Stmt.Conts, Chain.Conts], exProg_ok, _, ops, exText_structure, h1, ?_⟩
  rw [compile_render exProg exProg_ok] at h2
  injection h2 with h2
  rw [← h2]
  rfl

theorem exSees : Sees exHost () (.node 0 []) := ⟨Tests.exOk, Tests.exTree, rfl, by decide⟩

theorem exFits : Fits exHost exCfg () () := ⟨fun a d r t => by simp [exCfg, Event.eqIgnoreAsciiCase], rfl, rfl⟩

theorem exCore : CoreBlk exHost exCfg exProg := by
  refine ⟨?_, ⟨⟨⟨?_, ?_⟩, .inl ⟨by simp, ?_, ?_⟩⟩, ⟨?_, trivial⟩, rfl⟩, trivial⟩
  · intro n hn
    rw [List.mem_singleton] at hn
    subst hn
    refine ⟨⟨by simp [got], by simp [got]⟩, ?_⟩
    intro c hc
    simp only [exHost, List.mem_singleton] at hc
    simp [hc, exCfg]
  · intro a ha
    simp only [got, exContains, List.mem_cons, List.not_mem_nil, or_false] at ha
    rcases ha with rfl | rfl <;> simp [Fixed]
  · intro p hp
    simp only [got, exContains, List.mem_singleton] at hp
    subst hp
    trivial
  · simp [exContains, Uses]
  · simp [exContains, Uses]
  · intro n hn
    rw [List.mem_singleton] at hn
    subst hn
    exact ⟨⟨by simp [got, Fixed], by simp [got]⟩, by simp [Command]⟩

/-- The message is filed, as the host is told. -/
theorem exRun : ((Vm.play exCfg (.new ()) [.script ⟨false, ""⟩ exScript, .true, .true]).map fun r => Vm.outputs r.1) =
    some [.event (.fileInto (.folder ['y'] none none false) [] 0), .none, .none] := by
  decide +kernel

/-- The script has no `keep`. -/
theorem exKeeps {st : St} {b : Bool} (h : RunBlk exHost exCfg () (.node 0 []) exProg ⟨0, []⟩ st b) : Base.KeepsLast st.acts := by
  have noKeep : ∀ a fl b, st.acts ≠ a ++ .keep fl :: b := by
    intro a fl b e
    have hk : (.keep fl : Base.Action Place) ∈ st.acts := by rw [e]; simp
    cases h with
    | ends h => cases h with
      | act h => cases h with
        | ends h => cases h
        | cons h h' => cases h'
    | cons h h' => cases h with
      | act h => cases h with
        | cons h h1 =>
          cases h
          cases h1
          cases h' with
          | ends h => cases h with
            | cond h => cases h with
              | one _ h => cases h with
                | ends h => cases h with
                  | act h => cases h with
                    | ends h => cases h
                    | cons h h' => cases h'
                | cons h h' => cases h'
          | cons h h' =>
            cases h'
            cases h with
            | cond h => cases h with
              | oneNot _ => simp at hk
              | one _ h => cases h with
                | cons h h' =>
                  cases h'
                  cases h with
                  | act h => cases h with
                    | cons h h' =>
                      cases h'
                      cases h
                      simp at hk
  intro a fl b e
  exact absurd e (noKeep a fl b)

/-- All hypotheses of `core_text_partial` together. -/
example : ∃ r m st stopped l, Vm.Hist exCfg (.new ()) (.input (.script ⟨false, ""⟩ exScript) :: r) m ∧
    RunBlk exHost exCfg () (.node 0 []) exProg ⟨0, []⟩ st stopped ∧ Finally exHost () st.acts l ∧
    Base.told (Source.io r) = Base.sent st.acts ++ l ∧ Base.told (Source.io r) = [.fileInto (.folder ['y'] none none false) [] 0] := by
  have hsome : (Vm.play exCfg (.new ()) [.script ⟨false, ""⟩ exScript, .true, .true]).isSome = true := by decide +kernel
  obtain ⟨⟨h, c⟩, hp⟩ := Option.isSome_iff_exists.mp hsome
  have hh : Vm.Hist exCfg (.new ()) h (.waiting c) := Vm.play_hist _ .start hp
  have hfact : ((Vm.play exCfg (.new ()) [.script ⟨false, ""⟩ exScript, .true, .true]).all fun r =>
      ((Source.io r.1.tail).all fun | .input .true | .input .false => true | .input _ => false | .output (.error _) => false | .output _ => true) &&
      ((Source.io r.1.tail).any fun | .output .none => true | _ => false) &&
      Base.told (Source.io r.1.tail) == [.fileInto (.folder ['y'] none none false) [] 0]) = true := by decide +kernel
  obtain ⟨t, ht⟩ := Source.play_head hp
  simp only at ht
  subst ht
  rw [hp] at hfact
  simp only [Option.all_some, List.tail_cons, Bool.and_eq_true, List.all_eq_true, beq_iff_eq, List.any_eq_true] at hfact
  obtain ⟨⟨h1, x, h2, h2'⟩, h3⟩ := hfact
  have hA : Base.Answers (Source.io t) := by
    intro i hi
    have := h1 _ hi
    cases i <;> simp_all
  have hC : .output (.error .cpuLimit) ∉ Source.io t := fun hi => by simpa using h1 _ hi
  have hN : .output .none ∈ Source.io t := by
    split at h2'
    · exact h2
    · cases h2'
  obtain ⟨st, b, h4, h5⟩ := core_text_partial (src := fun _ => exProg) exSees exFits (by intro v hv; simpa [exCfg] using hv) hh
    ⟨by decide +kernel, by decide +kernel⟩ hA hC exScript_text (by simp [exCfg]) exCore
  obtain ⟨-, l, h6, -, h7⟩ := h5 (exKeeps h4)
  exact ⟨t, _, st, b, l, hh, h4, h6, h7 hN, h3⟩

/-- The hypotheses of `core_unique`: there is one outcome. -/
example : ∃! p : St × Bool, RunBlk exHost exCfg () (.node 0 []) exProg ⟨0, []⟩ p.1 p.2 := by
  have hd : ∀ k ∈ exProg.toks, TokDated exHost () k := by
    intro k hk
    simp only [exProg, Blk.toks, Stmt.toks, Chain.toks, TestE.toks, Atom.tok, List.mem_append, List.mem_cons, List.not_mem_nil, or_false] at hk
    rcases hk with rfl | rfl | rfl | rfl | rfl | rfl <;> simp [TokDated, Dated]
  obtain ⟨st, b, -, -, h, -⟩ := block_runs (cfg := exCfg) (notV := fun n => if n = 0 then 1 else 0)
    (hnot := by intro v; by_cases h : v = 0 <;> simp [h, exCfg]) exSees exFits exProg (structure_read exText_structure) exCore
    (s := ⟨0, []⟩) (st := Base.initial exCfg () 0 0 (fun _ => false)) ⟨rfl, rfl, rfl, rfl, rfl, rfl⟩
  refine ⟨⟨st, b⟩, h, fun q hq => ?_⟩
  obtain ⟨h1, h2⟩ := core_unique exText_structure hd hq h
  exact Prod.ext h1 h2

/-! ## A script that rejects the message -/

def exRefuse : Whole.Prog Int :=
  .cons (.cond (.els (.atom (.leaf (.test .Header exContains)))
    (.cons (.act [.cmd .Discard {}, .cmd .Ereject ⟨[], [.val (.text (bytes "no"))]⟩]) .nil) none
    (.cons (.act [.cmd .Keep {}]) .nil) none)) .nil

/-- The host is told to reject the message, and nothing else. -/
example : ((Vm.play exCfg (.new ()) [.script ⟨false, ""⟩ ⟨(exRefuse.code [] 0).map exInterp.lower, 0, 0⟩, .true, .true]).map fun r =>
    Vm.outputs r.1) = some [.event (.reject (.sender true ['n', 'o'])), .none, .none] := by
  decide +kernel

/-- As the specification says. -/
example (h : HoldsIn exHost () (.node 0 []) (.atom (.leaf (.test .Header exContains)))) :
    RunBlk exHost exCfg () (.node 0 []) exRefuse ⟨0, []⟩ ⟨0, [.discard, .reject (.sender true ['n', 'o'])]⟩ false :=
  .cons (.cond (.els h (.cons (.act (.cons .discard (.cons (.ereject rfl (by unfold Written.TextOf; decide +kernel)) .nil))) .nil))) .nil

example : ¬ ∃ fl, Base.Kept [.discard, .reject (Place.sender true ['n', 'o'])] fl := by
  rintro ⟨fl, h⟩
  cases h with
  | @explicit a b _ e hb =>
    have : (.keep fl : Base.Action Place) ∈ [.discard, .reject (Place.sender true ['n', 'o'])] := by rw [e]; simp
    simp at this
  | implicit h => exact h .discard (by simp) trivial

example : ¬ Base.Discarded [.discard, .reject (Place.sender true ['n', 'o'])] := by
  rw [← Base.fin_discarded]
  simp [Base.fin, Base.finStep]

end Sieve.Core
