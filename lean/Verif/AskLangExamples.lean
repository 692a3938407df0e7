import Verif.AskLangProps
import Verif.FlagLangExamples

/-!
# A text with questions, compiled and run
-/

namespace Sieve.AskLang

open Sieve.Args Sieve.Fields Sieve.Compile Sieve.Lex Sieve.Script Sieve.Vars
open Sieve.FlagLang (Text)

def exText : List UInt8 :=
  bytes "require [\"mailbox\",\"duplicate\",\"fileinto\"];if allof(mailboxexists \"A\",not duplicate){fileinto \"A\";}"

theorem exText_items : IsText 100 exText [.word .Require, .bracketOpen, .str (bytes "mailbox"), .comma, .str (bytes "duplicate"), .comma,
    .str (bytes "fileinto"), .bracketClose, .semicolon, .word .If, .word .AllOf, .parenOpen, .word .MailboxExists, .str (bytes "A"), .comma,
    .word .Not, .word .Duplicate, .parenClose, .curlyOpen, .word .FileInto, .str (bytes "A"), .semicolon, .curlyClose] := by
  have e : exText = bytes "require" ++ 32 :: 91 :: 34 :: (escape (bytes "mailbox") ++ 34 :: 44 :: 34 :: (escape (bytes "duplicate") ++
      34 :: 44 :: 34 :: (escape (bytes "fileinto") ++ 34 :: 93 :: 59 :: (bytes "if" ++ 32 :: (bytes "allof" ++ 40 ::
      (bytes "mailboxexists" ++ 32 :: 34 :: (escape (bytes "A") ++ 34 :: 44 :: (bytes "not" ++ 32 :: (bytes "duplicate" ++ 41 :: 123 ::
      (bytes "fileinto" ++ 32 :: 34 :: (escape (bytes "A") ++ 34 :: [59, 125]))))))))))) := by decide +kernel
  have plain : ∀ c : List UInt8, 92 ∉ c → Plain c := by
    intro c h
    refine ⟨fun u e => h (by simp [e]), fun u d v e => absurd (by simp [e]) h⟩
  rw [e]
  exact .word (by decide +kernel) ⟨32, _, rfl, by decide⟩ (.space (by decide) (.punct rfl (.str (plain _ (by decide +kernel)) (by decide +kernel)
    (.punct rfl (.str (plain _ (by decide +kernel)) (by decide +kernel)
    (.punct rfl (.str (plain _ (by decide +kernel)) (by decide +kernel) (.punct rfl (.punct rfl
    (.word (by decide +kernel) ⟨32, _, rfl, by decide⟩ (.space (by decide) (.word (by decide +kernel) ⟨40, _, rfl, by decide⟩ (.punct rfl
    (.word (by decide +kernel) ⟨32, _, rfl, by decide⟩ (.space (by decide) (.str (plain _ (by decide +kernel)) (by decide +kernel) (.punct rfl
    (.word (by decide +kernel) ⟨32, _, rfl, by decide⟩ (.space (by decide) (.word (by decide +kernel) ⟨41, _, rfl, by decide⟩ (.punct rfl
    (.punct rfl
    (.word (by decide +kernel) ⟨32, _, rfl, by decide⟩ (.space (by decide) (.str (plain _ (by decide +kernel)) (by decide +kernel)
    (.punct rfl (.punct rfl .nil)))))))))))))))))))))))))))

def exMailbox : Got Int := ⟨[], [.vals [.text (bytes "A")]]⟩

def exDup : Got Int := ⟨[], []⟩

def exFile : Got Int := ⟨[], [.val (.text (bytes "A"))]⟩

def exNames : List (List UInt8) := [bytes "mailbox", bytes "duplicate", bytes "fileinto"]

def exProg : Whole.Prog Int :=
  .cons (.act [.require exNames]) (.cons (.cond (.one
    (.all (.cons (.atom (.leaf (.test .MailboxExists exMailbox))) (.one (.not (.atom (.leaf (.test .Duplicate exDup)))))))
    (.cons (.act [.cmd .FileInto exFile]) .nil) none)) .nil)

theorem exText_structure : Whole.Structure Core.exLex Written.exArgs exText exProg := by
  obtain ⟨ts, h1, h2⟩ := lex_text Core.exLex rfl exText_items
  have e : ts = [.ident .Require, .bracketOpen, .string (bytes "mailbox"), .comma, .string (bytes "duplicate"), .comma,
      .string (bytes "fileinto"), .bracketClose, .semicolon,
      .ident .If, .ident .AllOf, .parenOpen, .ident .MailboxExists, .string (bytes "A"), .comma, .ident .Not, .ident .Duplicate, .parenClose,
      .curlyOpen, .ident .FileInto, .string (bytes "A"), .semicolon, .curlyClose] := by
    rw [lex_eq_lexN _ 200 _ _ (by decide +kernel)] at h1
    rw [← (Prod.mk.inj h1).1]
    decide +kernel
  refine ⟨_, ts, [.require exNames, .word .If, .word .AllOf, .popen, .test .MailboxExists exMailbox, .comma, .word .Not, .test .Duplicate exDup,
    .pclose, .openB, .cmd .FileInto exFile, .closeB], exText_items, h1, h2, (script_iff _ _ _).1 ?_, rfl⟩
  rw [e]
  decide +kernel

def exHost : Host Unit Int Nat where
  flags := FlagLang.exHost
  lists := fun _ => []
  items := fun _ _ => none
  steps := fun _ => 9

abbrev exCfg : Vm.Cfg (Text × Unit) (Expr.Val Int) Core.Place := FlagLang.exCfg

def exInterp : Source.Interp exCfg (Script.Node Int) (Script.Node Int) (List UInt8) :=
  exHost.interp exCfg (fun v => if isNil v then .int 1 else .str []) FlagLang.exNot

def exScript : Vm.Script (Text × Unit) (Expr.Val Int) Core.Place := ⟨(exProg.code [] 0).map exInterp.lower, 1, 0⟩

theorem exProg_ok : exProg.Ok ⟨9, 9, 9⟩ [] := by
  simp [exProg, Blk.Ok, Stmt.Ok, Chain.Ok, TestE.depth, Tests.depth]

theorem exScript_text : Whole.FromText Core.exLex Written.exArgs ⟨9, 9, 9⟩ 1000 exInterp (fun _ => exProg) exScript := by
  obtain ⟨ops, h1, h2⟩ := Whole.structure_accepted (lim := ⟨9, 9, 9⟩) (maxSize := 1000) exText_structure (by decide +kernel) exProg_ok
  refine ⟨by simp [exProg, Blk.Conts, Stmt.Conts, Chain.Conts], exProg_ok, _, ops, exText_structure, h1, ?_⟩
  rw [compile_render exProg exProg_ok] at h2
  injection h2 with h2
  rw [← h2]
  rfl

theorem exSees : Sees exHost () (.node 0 []) :=
  ⟨FlagLang.exSees, Body.exForward, Option.isSome_iff_exists.1 (by decide +kernel), fun a b => by
    show (a == b) = (b == a)
    exact Bool.beq_comm⟩

theorem exAsking : Asking exHost exCfg exProg := by
  refine ⟨?_, ⟨⟨⟨⟨?_, by simp [Core.got, exMailbox]⟩, .inr (.inl (.inl (by simp)))⟩, ⟨by simp [Core.got, exDup], by simp [Core.got, exDup]⟩,
    .inr (.inl (.inl (by simp)))⟩, ⟨?_, trivial⟩, rfl⟩, trivial⟩
  · intro n hn
    rw [List.mem_singleton] at hn
    subst hn
    refine .inr ⟨⟨by simp [Core.got], by simp [Core.got]⟩, ?_⟩
    intro c hc
    simp only [FlagLang.withFlags, seen, exHost, FlagLang.exHost, Vars.exHost, Core.exHost, List.mem_singleton] at hc
    simp [hc, FlagLang.exCfg]
  · intro a ha
    simp only [Core.got, exMailbox, List.mem_cons, List.not_mem_nil, or_false] at ha
    subst ha
    simp [Vars.Reads]
  · intro n hn
    rw [List.mem_singleton] at hn
    subst hn
    exact .inr ⟨⟨by simp [Core.got, exFile, Vars.Reads], by simp [Core.got, exFile]⟩, by simp [Core.Command, exFile]⟩

/-- The host is asked for the mailbox and for the message, and the message is filed. -/
theorem exRun : ((Vm.play exCfg (.new ([], ())) [.script ⟨false, ""⟩ exScript, .true, .false, .true]).map fun r => Source.io r.1.tail) =
    some [.output (.event (.query (.mailboxes [.name ['A']] []))), .input .true,
      .output (.event (.query (.duplicate ⟨['i', 'd'], 60, false⟩))), .input .false,
      .output (.event (.fileInto (.folder ['A'] none none false) [] 0)), .input .true, .output .none] := by
  rfl

/-- There is no such mailbox: the message is kept, and nothing more is asked. -/
theorem exRun_no : ((Vm.play exCfg (.new ([], ())) [.script ⟨false, ""⟩ exScript, .false, .true]).map fun r => Source.io r.1.tail) =
    some [.output (.event (.query (.mailboxes [.name ['A']] []))), .input .false, .output (.event (.keep [] 0)), .input .true,
      .output .none] := by
  rfl

/-- A script without `keep` asks for none. -/
theorem noKeeps {H : Host Unit Int Nat} {ans : Nat → Bool} {t : Mime.Tree} {b : Whole.Prog Int}
    (hb : Lang.BlkIn (fun _ => True) (fun n => ∀ g, n ≠ .cmd .Keep g) b) {s s' : FlagLang.St Int} {f : Bool} (h : Runs H exCfg ans () t b s s' f)
    (hs : ∀ fl, .keep fl ∉ s.core.acts) : ∀ fl, .keep fl ∉ s'.core.acts := by
  refine Lang.block_invariant (J := fun s => ∀ fl, .keep fl ∉ s.core.acts) (T := Says H exCfg.allowed ans () t)
    (D := FlagLang.Does H.flags exCfg ()) ?_ ?_ h hb hs
  · intro n s b s' _ h hs
    cases h with
    | asks _ _ => simpa using hs
    | _ => exact hs
  · intro n s s' b hn h hs
    cases h with
    | vars h =>
      cases h with
      | core h =>
        cases h with
        | keep => exact absurd rfl (hn _)
        | _ => simpa using hs
      | set _ _ => exact hs
    | flags _ _ _ => exact hs
    | «variable» _ _ _ _ => exact hs

theorem exKeeps {ans : Nat → Bool} {st : FlagLang.St Int} {b : Bool}
    (h : Runs exHost exCfg ans () (.node 0 []) exProg (FlagLang.start exHost.flags) st b) : Base.KeepsLast st.core.acts := by
  have hk := noKeeps (by simp [exProg, Lang.BlkIn, Lang.StmtIn, Lang.ChainIn, Lang.TestIn, Lang.TestsIn]) h (by simp [FlagLang.start])
  intro a fl b e
  exact absurd (by rw [e]; simp) (hk fl)

/-- All hypotheses of `asks_text_partial` together: the mailbox is there, and the message has not been seen. -/
example : ∃ r m st stopped l, Vm.Hist exCfg (.new ([], ())) (.input (.script ⟨false, ""⟩ exScript) :: r) m ∧
    Runs exHost exCfg (· == 0) () (.node 0 []) exProg (FlagLang.start exHost.flags) st stopped ∧
    Core.Finally (FlagLang.withFlags exHost.flags).core (st.flags, ()) st.core.acts l ∧ Base.told (Source.io r) = Base.sent st.core.acts ++ l ∧
    Base.told (Source.io r) = [.query (.mailboxes [.name ['A']] []), .query (.duplicate ⟨['i', 'd'], 60, false⟩),
      .fileInto (.folder ['A'] none none false) [] 0] := by
  have hsome : (Vm.play exCfg (.new ([], ())) [.script ⟨false, ""⟩ exScript, .true, .false, .true]).isSome = true := by decide +kernel
  obtain ⟨⟨h, c⟩, hp⟩ := Option.isSome_iff_exists.mp hsome
  have hh : Vm.Hist exCfg (.new ([], ())) h (.waiting c) := Vm.play_hist _ .start hp
  have hio := exRun
  obtain ⟨t, ht⟩ := Source.play_head hp
  simp only at ht
  subst ht
  rw [hp] at hio
  simp only [Option.map_some, List.tail_cons, Option.some.injEq] at hio
  have hA : Base.Answers (Source.io t) := by
    intro i hi
    rw [hio] at hi
    simp at hi
    tauto
  have hQ : Base.Answered (· == 0) (Source.io t) := by
    intro h0 p i h1 e
    rw [hio] at e
    rcases h0 with _ | ⟨a1, _ | ⟨a2, _ | ⟨a3, _ | ⟨a4, _ | ⟨a5, _ | ⟨a6, a⟩⟩⟩⟩⟩⟩ <;> simp at e
    · obtain ⟨-, rfl, -⟩ := e
      simp [Base.questions, Base.told]
    · obtain ⟨rfl, rfl, -, rfl, -⟩ := e
      simp [Base.questions, Base.told]
    · have := congrArg List.length e.2.2.2.2.2.2
      simp at this
      omega
  have hC : .output (.error .cpuLimit) ∉ Source.io t := by
    rw [hio]
    simp
  have hN : .output .none ∈ Source.io t := by
    rw [hio]
    simp
  have hE : ∀ v, exCfg.isEmpty v = true → v = exCfg.empty := by
    intro v hv
    show v = .str []
    change isNil v = true at hv
    unfold isNil at hv
    split at hv
    · rfl
    · cases hv
  obtain ⟨st, b, h4, h5⟩ := asks_text_partial (src := fun _ => exProg) exSees FlagLang.exFits hE rfl hh
    ⟨by decide +kernel, by decide +kernel⟩ hA hQ hC exScript_text (by simp [FlagLang.exCfg]) exAsking
  obtain ⟨-, l, h6, -, h7⟩ := h5 (exKeeps h4)
  exact ⟨t, _, st, b, l, hh, h4, h6, h7 hN, by rw [hio]; rfl⟩

/-- `ihave`: an extension that has to be required is never there. -/
example : IsTrue exHost (fun c => c = .known "fileinto") (fun _ => none, ([], ())) (.node 0 []) .Ihave ⟨[], [.texts [bytes "fileinto"]]⟩ ∧
    ¬ IsTrue { exHost with flags := { FlagLang.exHost with vars := { FlagLang.exHost.vars with core :=
        { Core.exHost with caps := fun _ => [.known "variables"] } } } } (fun _ => true) (fun _ => none, ([], ())) (.node 0 []) .Ihave
      ⟨[], [.texts [bytes "variables"]]⟩ := by
  constructor
  · refine ⟨_, rfl, ?_⟩
    intro c hc
    simp only [exHost, FlagLang.exHost, Vars.exHost, Core.exHost, List.mem_singleton] at hc
    subst hc
    simp
  · rintro ⟨ns, -, h⟩
    exact (h (.known "variables") (by simp)).2.1 rfl

end Sieve.AskLang
