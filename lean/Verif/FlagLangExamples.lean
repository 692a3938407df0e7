import Verif.FlagLangUnique
import Verif.VarsExamples

/-!
# A text with flags, compiled and run
-/

namespace Sieve.FlagLang

open Sieve.Args Sieve.Fields Sieve.Compile Sieve.Lex Sieve.Script Sieve.Vars

def exText : List UInt8 :=
  bytes "require [\"imap4flags\",\"fileinto\",\"variables\"];setflag \"v\" \"c\";addflag \"a b\";if hasflag \"A\"{fileinto \"x\";}"

theorem exText_items : IsText 100 exText [.word .Require, .bracketOpen, .str (bytes "imap4flags"), .comma, .str (bytes "fileinto"), .comma,
    .str (bytes "variables"), .bracketClose, .semicolon, .word .SetFlag, .str (bytes "v"), .str (bytes "c"), .semicolon, .word .AddFlag,
    .str (bytes "a b"), .semicolon, .word .If, .word .HasFlag, .str (bytes "A"), .curlyOpen, .word .FileInto, .str (bytes "x"), .semicolon,
    .curlyClose] := by
  have e : exText = bytes "require" ++ 32 :: 91 :: 34 :: (escape (bytes "imap4flags") ++ 34 :: 44 :: 34 :: (escape (bytes "fileinto") ++
      34 :: 44 :: 34 :: (escape (bytes "variables") ++
      34 :: 93 :: 59 :: (bytes "setflag" ++ 32 :: 34 :: (escape (bytes "v") ++ 34 :: 32 :: 34 :: (escape (bytes "c") ++ 34 :: 59 ::
      (bytes "addflag" ++ 32 :: 34 :: (escape (bytes "a b") ++ 34 :: 59 ::
      (bytes "if" ++ 32 :: (bytes "hasflag" ++ 32 :: 34 :: (escape (bytes "A") ++ 34 :: 123 ::
      (bytes "fileinto" ++ 32 :: 34 :: (escape (bytes "x") ++ 34 :: [59, 125]))))))))))))) := by decide +kernel
  have plain : ∀ c : List UInt8, 92 ∉ c → Plain c := by
    intro c h
    refine ⟨fun u e => h (by simp [e]), fun u d v e => absurd (by simp [e]) h⟩
  rw [e]
  exact .word (by decide +kernel) ⟨32, _, rfl, by decide⟩ (.space (by decide) (.punct rfl (.str (plain _ (by decide +kernel)) (by decide +kernel)
    (.punct rfl (.str (plain _ (by decide +kernel)) (by decide +kernel)
    (.punct rfl (.str (plain _ (by decide +kernel)) (by decide +kernel) (.punct rfl (.punct rfl
    (.word (by decide +kernel) ⟨32, _, rfl, by decide⟩ (.space (by decide) (.str (plain _ (by decide +kernel)) (by decide +kernel)
    (.space (by decide) (.str (plain _ (by decide +kernel)) (by decide +kernel) (.punct rfl
    (.word (by decide +kernel) ⟨32, _, rfl, by decide⟩ (.space (by decide) (.str (plain _ (by decide +kernel)) (by decide +kernel)
    (.punct rfl
    (.word (by decide +kernel) ⟨32, _, rfl, by decide⟩ (.space (by decide) (.word (by decide +kernel) ⟨32, _, rfl, by decide⟩
    (.space (by decide) (.str (plain _ (by decide +kernel)) (by decide +kernel) (.punct rfl
    (.word (by decide +kernel) ⟨32, _, rfl, by decide⟩ (.space (by decide) (.str (plain _ (by decide +kernel)) (by decide +kernel)
    (.punct rfl (.punct rfl .nil))))))))))))))))))))))))))))))

def exSet : Got Int := ⟨[], [.text (bytes "v"), .vals [.text (bytes "c")]]⟩

def exAdd : Got Int := ⟨[], [.vals [.text (bytes "a b")]]⟩

def exHas : Got Int := ⟨[], [.vals [.text (bytes "A")]]⟩

def exFile : Got Int := ⟨[], [.val (.text (bytes "x"))]⟩

def exNames : List (List UInt8) := [bytes "imap4flags", bytes "fileinto", bytes "variables"]

def exProg : Whole.Prog Int :=
  .cons (.act [.require exNames]) <| .cons (.act [.cmd .SetFlag exSet]) <| .cons (.act [.cmd .AddFlag exAdd])
    (.cons (.cond (.one (.atom (.leaf (.test .HasFlag exHas))) (.cons (.act [.cmd .FileInto exFile]) .nil) none)) .nil)

theorem exText_structure : Whole.Structure Core.exLex Written.exArgs exText exProg := by
  obtain ⟨ts, h1, h2⟩ := lex_text Core.exLex rfl exText_items
  have e : ts = [.ident .Require, .bracketOpen, .string (bytes "imap4flags"), .comma, .string (bytes "fileinto"), .comma,
      .string (bytes "variables"), .bracketClose, .semicolon,
      .ident .SetFlag, .string (bytes "v"), .string (bytes "c"), .semicolon, .ident .AddFlag, .string (bytes "a b"), .semicolon,
      .ident .If, .ident .HasFlag, .string (bytes "A"), .curlyOpen, .ident .FileInto, .string (bytes "x"), .semicolon, .curlyClose] := by
    rw [lex_eq_lexN _ 200 _ _ (by decide +kernel)] at h1
    rw [← (Prod.mk.inj h1).1]
    decide +kernel
  refine ⟨_, ts, [.require exNames, .cmd .SetFlag exSet, .cmd .AddFlag exAdd, .word .If, .test .HasFlag exHas, .openB,
    .cmd .FileInto exFile, .closeB], exText_items, h1, h2, (script_iff _ _ _).1 ?_, rfl⟩
  rw [e]
  decide +kernel

def exHost : Host Unit Int Nat where
  vars := { Vars.exHost with names := [bytes "v"] }
  lowercase := fun t => t.map Char.toLower
  other := fun _ => Written.exOther

def exCfg : Vm.Cfg (Text × Unit) (Expr.Val Int) Core.Place where
  cpuLimit := 100
  maxRedirects := 1
  maxOut := 3
  maxReceived := 10
  maxIncludes := 3
  allowed := fun c => c = .known "fileinto"
  registered := fun _ => none
  received := fun _ => 0
  own := fun q => Core.exCfg.own q.2
  nested := fun _ _ _ => []
  globalFlags := fun q => (Flags.flagsOf q.1).map String.ofList
  render := fun _ => .nowhere
  toBool := fun v => !isNil v
  isEmpty := isNil
  empty := .str []
  pushResult := fun w _ => w

theorem exNot : ∀ v, exCfg.toBool (if isNil v then .int 1 else .str []) = !exCfg.toBool v := by
  intro v
  show (!isNil (if isNil v = true then .int 1 else .str [])) = !(!isNil v)
  cases isNil v <;> rfl

def exInterp : Source.Interp exCfg (Script.Node Int) (Script.Node Int) (List UInt8) :=
  exHost.interp exCfg (fun v => if isNil v then .int 1 else .str []) exNot

def exScript : Vm.Script (Text × Unit) (Expr.Val Int) Core.Place := ⟨(exProg.code [] 0).map exInterp.lower, 1, 0⟩

theorem exProg_ok : exProg.Ok ⟨9, 9, 9⟩ [] := by
  simp [exProg, Blk.Ok, Stmt.Ok, Chain.Ok, TestE.depth]

theorem exScript_text : Whole.FromText Core.exLex Written.exArgs ⟨9, 9, 9⟩ 1000 exInterp (fun _ => exProg) exScript := by
  obtain ⟨ops, h1, h2⟩ := Whole.structure_accepted (lim := ⟨9, 9, 9⟩) (maxSize := 1000) exText_structure (by decide +kernel) exProg_ok
  refine ⟨by simp [exProg, Blk.Conts, Stmt.Conts, Chain.Conts], exProg_ok, _, ops, exText_structure, h1, ?_⟩
  rw [compile_render exProg exProg_ok] at h2
  injection h2 with h2
  rw [← h2]
  rfl

theorem exSees : Sees exHost () (.node 0 []) := ⟨Tests.exOk, Tests.exTree, rfl, by decide⟩

theorem exFits : Fits exHost exCfg () where
  vars := fun f => ⟨⟨Core.exFits.own, rfl, rfl⟩, rfl, by decide⟩
  lower := by
    intro t ht h
    cases t with
    | nil => exact ht rfl
    | cons c l => simp [exHost] at h

theorem exFlagged : Flagged exHost exCfg exProg := by
  refine ⟨?_, ?_, ?_, ⟨⟨⟨?_, ?_⟩, by simp [Test, Written.Comparing, exHas, Uses]⟩, ⟨?_, trivial⟩, rfl⟩, trivial⟩
  · intro n hn
    rw [List.mem_singleton] at hn
    subst hn
    refine .inr ⟨⟨by simp [Core.got], by simp [Core.got]⟩, ?_⟩
    intro c hc
    simp only [withFlags, seen, exHost, Vars.exHost, Core.exHost, List.mem_singleton] at hc
    simp [hc, exCfg]
  · intro n hn
    rw [List.mem_singleton] at hn
    subst hn
    exact .inl ⟨⟨by simp [Core.got, exSet, Vars.Reads], by simp [Core.got, exSet]⟩, _, _, rfl, by simp, .inr ⟨_, _, rfl, by decide +kernel⟩⟩
  · intro n hn
    rw [List.mem_singleton] at hn
    subst hn
    exact .inl ⟨⟨by simp [Core.got, exAdd, Vars.Reads], by simp [Core.got, exAdd]⟩, _, _, rfl, by simp, .inl ⟨_, rfl⟩⟩
  · intro a ha
    simp only [Core.got, exHas, List.mem_cons, List.not_mem_nil, or_false] at ha
    subst ha
    simp [Vars.Reads]
  · simp [Core.got, exHas]
  · intro n hn
    rw [List.mem_singleton] at hn
    subst hn
    exact .inr ⟨⟨by simp [Core.got, exFile, Vars.Reads], by simp [Core.got, exFile]⟩, by simp [Core.Command, exFile]⟩

/-- The message is filed with the flags that it was given, as the host is told. -/
theorem exRun : ((Vm.play exCfg (.new ([], ())) [.script ⟨false, ""⟩ exScript, .true, .true]).map fun r => Vm.outputs r.1) =
    some [.event (.fileInto (.folder ['x'] none none false) ["a", "b"] 0), .none, .none] := by
  decide +kernel

/-- A script without `keep` asks for none. -/
theorem noKeeps {H : Host Unit Int Nat} {t : Mime.Tree} {b : Whole.Prog Int}
    (hb : Lang.BlkIn (fun _ => True) (fun n => ∀ g, n ≠ .cmd .Keep g) b) {s s' : St Int} {f : Bool} (h : Runs H exCfg () t b s s' f)
    (hs : ∀ fl, .keep fl ∉ s.core.acts) : ∀ fl, .keep fl ∉ s'.core.acts := by
  refine Lang.block_invariant (J := fun s => ∀ fl, .keep fl ∉ s.core.acts) (T := Says H () t) (D := Does H exCfg ()) ?_ ?_ h hb hs
  · intro n s b s' _ h hs
    rw [h.1]
    exact hs
  · intro n s s' b hn h hs
    cases h with
    | vars h =>
      cases h with
      | core h =>
        cases h with
        | keep => exact absurd rfl (hn _)
        | _ => simpa using hs
      | set _ _ => exact hs
    | flags _ _ _ => exact hs
    | «variable» _ _ _ _ => exact hs

theorem exKeeps {st : St Int} {b : Bool} (h : Runs exHost exCfg () (.node 0 []) exProg (start exHost) st b) : Base.KeepsLast st.core.acts := by
  have hk := noKeeps (by simp [exProg, Lang.BlkIn, Lang.StmtIn, Lang.ChainIn, Lang.TestIn]) h (by simp [start])
  intro a fl b e
  exact absurd (by rw [e]; simp) (hk fl)

/-- All hypotheses of `flags_text_partial` together. -/
example : ∃ r m st stopped l, Vm.Hist exCfg (.new ([], ())) (.input (.script ⟨false, ""⟩ exScript) :: r) m ∧
    Runs exHost exCfg () (.node 0 []) exProg (start exHost) st stopped ∧ Core.Finally (withFlags exHost).core (st.flags, ()) st.core.acts l ∧
    Base.told (Source.io r) = Base.sent st.core.acts ++ l ∧
    Base.told (Source.io r) = [.fileInto (.folder ['x'] none none false) ["a", "b"] 0] := by
  have hsome : (Vm.play exCfg (.new ([], ())) [.script ⟨false, ""⟩ exScript, .true, .true]).isSome = true := by decide +kernel
  obtain ⟨⟨h, c⟩, hp⟩ := Option.isSome_iff_exists.mp hsome
  have hh : Vm.Hist exCfg (.new ([], ())) h (.waiting c) := Vm.play_hist _ .start hp
  have hfact : ((Vm.play exCfg (.new ([], ())) [.script ⟨false, ""⟩ exScript, .true, .true]).all fun r =>
      ((Source.io r.1.tail).all fun | .input .true | .input .false => true | .input _ => false | .output (.error _) => false | .output _ => true) &&
      ((Source.io r.1.tail).any fun | .output .none => true | _ => false) &&
      Base.told (Source.io r.1.tail) == [.fileInto (.folder ['x'] none none false) ["a", "b"] 0]) = true := by decide +kernel
  obtain ⟨t, ht⟩ := Source.play_head hp
  simp only at ht
  subst ht
  rw [hp] at hfact
  simp only [Option.all_some, List.tail_cons, Bool.and_eq_true, List.all_eq_true, beq_iff_eq, List.any_eq_true] at hfact
  obtain ⟨⟨h1, x, h2, h2'⟩, h3⟩ := hfact
  have hA : Base.Answers (Source.io t) := by
    intro i hi
    have := h1 _ hi
    cases i <;> simp_all
  have hC : .output (.error .cpuLimit) ∉ Source.io t := fun hi => by simpa using h1 _ hi
  have hN : .output .none ∈ Source.io t := by
    split at h2'
    · exact h2
    · cases h2'
  have hE : ∀ v, exCfg.isEmpty v = true → v = exCfg.empty := by
    intro v hv
    show v = .str []
    change isNil v = true at hv
    unfold isNil at hv
    split at hv
    · rfl
    · cases hv
  obtain ⟨st, b, h4, h5⟩ := flags_text_partial (src := fun _ => exProg) exSees exFits hE rfl hh
    ⟨by decide +kernel, by decide +kernel⟩ hA hC exScript_text (by simp [exCfg]) exFlagged
  obtain ⟨-, l, h6, -, h7⟩ := h5 (exKeeps h4)
  exact ⟨t, _, st, b, l, hh, h4, h6, h7 hN, h3⟩

/-- The hypotheses of `flags_unique_partial`: there is one outcome. -/
example : ∃! p : St Int × Bool, Runs exHost exCfg () (.node 0 []) exProg (start exHost) p.1 p.2 := by
  have hd : ∀ k ∈ exProg.toks, Lang.TokIn (Clear exHost ()) k := by
    intro k hk
    simp only [exProg, Blk.toks, Stmt.toks, Chain.toks, TestE.toks, Atom.tok, List.mem_append, List.mem_cons, List.not_mem_nil, or_false] at hk
    rcases hk with rfl | rfl | rfl | rfl | rfl | rfl | rfl | rfl <;> simp only [Lang.TokIn, List.mem_singleton, forall_eq]
    · exact ⟨fun f => by simp [Vars.Clear, Core.Dated], by simp, by simp⟩
    · refine ⟨fun f => by simp [Vars.Clear, Core.Dated], by simp, ?_⟩
      intro c g vs e _ hp q hq
      cases e
      refine .inl ?_
      rcases hp with hp | ⟨m, hp⟩ <;> simp only [exSet, List.cons.injEq, reduceCtorEq, false_and, Arg.vals.injEq, and_true] at hp
      rw [← hp.2]
      rfl
    · refine ⟨fun f => by simp [Vars.Clear, Core.Dated], by simp, ?_⟩
      intro c g vs e _ hp q hq
      cases e
      refine .inl ?_
      rcases hp with hp | ⟨m, hp⟩ <;> simp only [exAdd, List.cons.injEq, reduceCtorEq, false_and, Arg.vals.injEq, and_true] at hp
      rw [← hp]
      rfl
    all_goals first | trivial | exact ⟨fun f => by simp [Vars.Clear, Core.Dated], by simp, fun c g vs e hc => by cases e <;> simp at hc⟩
  have hread : ∀ k ∈ exProg.toks, Lang.TokIn (Core.Read Written.exArgs) k := by
    intro k hk
    have := Core.structure_read exText_structure k hk
    cases k <;> exact this
  obtain ⟨st, b, -, -, h, -⟩ := Lang.block_runs (models (hnot := exNot) exSees exFits) exProg hread exFlagged
    (rep_start exHost exFits 0 (fun _ => false))
  refine ⟨⟨st, b⟩, h, fun q hq => ?_⟩
  obtain ⟨h1, h2⟩ := flags_unique_partial exText_structure hd hq h
  exact Prod.ext h1 h2

/-- The hypothesis of `scopes_agree`: a command for flags registers the variable that it names. -/
example : Scope.compile (written (withFlags exHost) exProg) = some (taken (withFlags exHost) exProg, 1) := by
  refine scopes_agree (H := (withFlags exHost)) (.act (.within ?_ .nil) (.act (.new (n := bytes "v") (a := false) (by decide +kernel) (by simp)
    (by decide +kernel) (.nil)) (.act (.within ?_ .nil) (.cond ⟨?_, ?_, trivial⟩ .nil))))
  · simp [Within, registers, Core.got, Host.gotRefs]
  · refine ⟨by simp [registers, exAdd], ?_⟩
    show ∀ m ∈ (withFlags exHost).gotRefs exAdd, m ∈ [bytes "v"]
    decide +kernel
  · decide +kernel
  · intro n hn
    rw [List.mem_singleton] at hn
    subst hn
    refine ⟨?_, ?_⟩
    · simp [registers, exFile]
    · show ∀ m ∈ (withFlags exHost).gotRefs exFile, m ∈ [bytes "v"]
      decide +kernel

/-- `removeflag` removes a flag in any case; the others may change their places. -/
example : Makes (fun t => t.map Char.toLower) .RemoveFlag ["a".toList, "b".toList, "c".toList] ["A".toList] ["c".toList, "b".toList] :=
  .remove (k := ["b".toList, "c".toList]) (by
    intro f
    simp only [List.mem_cons, List.not_mem_nil, or_false]
    constructor
    · rintro (rfl | rfl) <;> refine ⟨by simp, ?_⟩ <;> simp <;> decide
    · rintro ⟨rfl | rfl | rfl, h⟩
      · exact absurd ⟨_, rfl, by decide⟩ h
      · exact .inl rfl
      · exact .inr rfl) (.cons _ (.refl _)) (List.Perm.swap _ _ _)

end Sieve.FlagLang
