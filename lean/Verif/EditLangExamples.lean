import Verif.EditLangProps
import Verif.MailLangExamples

/-!
# A text that changes header fields, compiled and run
-/

namespace Sieve.EditLang

open Sieve.Args Sieve.Fields Sieve.Compile Sieve.Lex Sieve.Script Sieve.Vars
open Sieve.FlagLang (Text)

def exText : List UInt8 :=
  bytes "require [\"editheader\",\"fileinto\",\"copy\"];deleteheader \"X\";if not exists \"X\"{fileinto :copy \"A\";}addheader :last \"Y\" \"v\";"

theorem exText_items : IsText 100 exText [.word .Require, .bracketOpen, .str (bytes "editheader"), .comma, .str (bytes "fileinto"), .comma,
    .str (bytes "copy"), .bracketClose, .semicolon, .word .DeleteHeader, .str (bytes "X"), .semicolon, .word .If, .word .Not, .word .Exists, .str (bytes "X"), .curlyOpen,
    .word .FileInto, .tag .Copy, .str (bytes "A"), .semicolon, .curlyClose,
    .word .AddHeader, .tag .Last, .str (bytes "Y"), .str (bytes "v"), .semicolon] := by
  have e : exText = bytes "require" ++ 32 :: 91 :: 34 :: (escape (bytes "editheader") ++ 34 :: 44 :: 34 :: (escape (bytes "fileinto") ++ 34 :: 44 :: 34 :: (escape (bytes "copy") ++
      34 :: 93 :: 59 :: (bytes "deleteheader" ++ 32 :: 34 :: (escape (bytes "X") ++ 34 :: 59 :: (bytes "if" ++ 32 :: (bytes "not" ++ 32 ::
      (bytes "exists" ++ 32 :: 34 :: (escape (bytes "X") ++ 34 :: 123 :: (bytes "fileinto" ++ 32 :: 58 :: (bytes "copy" ++ 32 :: 34 ::
      (escape (bytes "A") ++ 34 :: 59 :: 125 :: (bytes "addheader" ++ 32 :: 58 :: (bytes "last" ++ 32 :: 34 :: (escape (bytes "Y") ++
      34 :: 32 :: 34 :: (escape (bytes "v") ++ 34 :: [59])))))))))))))))) := by decide +kernel
  have plain : ∀ c : List UInt8, 92 ∉ c → Plain c := by
    intro c h
    refine ⟨fun u e => h (by simp [e]), fun u d v e => absurd (by simp [e]) h⟩
  rw [e]
  exact .word (by decide +kernel) ⟨32, _, rfl, by decide⟩ (.space (by decide) (.punct rfl (.str (plain _ (by decide +kernel)) (by decide +kernel)
    (.punct rfl (.str (plain _ (by decide +kernel)) (by decide +kernel)
    (.punct rfl (.str (plain _ (by decide +kernel)) (by decide +kernel) (.punct rfl (.punct rfl
    (.word (by decide +kernel) ⟨32, _, rfl, by decide⟩ (.space (by decide) (.str (plain _ (by decide +kernel)) (by decide +kernel) (.punct rfl
    (.word (by decide +kernel) ⟨32, _, rfl, by decide⟩ (.space (by decide) (.word (by decide +kernel) ⟨32, _, rfl, by decide⟩ (.space (by decide)
    (.word (by decide +kernel) ⟨32, _, rfl, by decide⟩ (.space (by decide) (.str (plain _ (by decide +kernel)) (by decide +kernel) (.punct rfl
    (.word (by decide +kernel) ⟨32, _, rfl, by decide⟩ (.space (by decide) (.tag (by decide +kernel) ⟨32, _, rfl, by decide⟩ (.space (by decide)
    (.str (plain _ (by decide +kernel)) (by decide +kernel) (.punct rfl (.punct rfl
    (.word (by decide +kernel) ⟨32, _, rfl, by decide⟩ (.space (by decide) (.tag (by decide +kernel) ⟨32, _, rfl, by decide⟩ (.space (by decide)
    (.str (plain _ (by decide +kernel)) (by decide +kernel) (.space (by decide) (.str (plain _ (by decide +kernel)) (by decide +kernel)
    (.punct rfl .nil))))))))))))))))))))))))))))))))))))

def exDelete : Got Int := ⟨[], [.val (.text (bytes "X"))]⟩

def exExists : Got Int := ⟨[], [.vals [.text (bytes "X")]]⟩

def exFile : Got Int := ⟨[(.Copy, .flag)], [.val (.text (bytes "A"))]⟩

def exAdd : Got Int := ⟨[(.Last, .flag)], [.val (.text (bytes "Y")), .val (.text (bytes "v"))]⟩

def exNames : List (List UInt8) := [bytes "editheader", bytes "fileinto", bytes "copy"]

def exProg : Whole.Prog Int :=
  .cons (.act [.require exNames]) (.cons (.act [.cmd .DeleteHeader exDelete])
    (.cons (.cond (.one (.not (.atom (.leaf (.test .Exists exExists)))) (.cons (.act [.cmd .FileInto exFile]) .nil) none))
    (.cons (.act [.cmd .AddHeader exAdd]) .nil)))

set_option maxRecDepth 20000 in
theorem exText_structure : Whole.Structure Core.exLex Written.exArgs exText exProg := by
  obtain ⟨ts, h1, h2⟩ := lex_text Core.exLex rfl exText_items
  have e : ts = [.ident .Require, .bracketOpen, .string (bytes "editheader"), .comma, .string (bytes "fileinto"), .comma,
      .string (bytes "copy"), .bracketClose, .semicolon,
      .ident .DeleteHeader, .string (bytes "X"), .semicolon, .ident .If, .ident .Not, .ident .Exists, .string (bytes "X"), .curlyOpen,
      .ident .FileInto, .tag .Copy, .string (bytes "A"), .semicolon, .curlyClose,
      .ident .AddHeader, .tag .Last, .string (bytes "Y"), .string (bytes "v"), .semicolon] := by
    rw [lex_eq_lexN _ 200 _ _ (by decide +kernel)] at h1
    rw [← (Prod.mk.inj h1).1]
    decide +kernel
  refine ⟨_, ts, [.require exNames, .cmd .DeleteHeader exDelete, .word .If, .word .Not, .test .Exists exExists, .openB,
    .cmd .FileInto exFile, .closeB, .cmd .AddHeader exAdd], exText_items, h1, h2, (script_iff _ _ _).1 ?_, rfl⟩
  rw [e]
  decide +kernel

/-- A message is its parts. -/
abbrev ExMessage := List (Mime.Part Nat Tests.Field)

def exCore : Core.Host ExMessage Int Nat where
  env := fun w => { Written.exEnv with parts := w }
  fuel := fun _ => 3
  size := fun _ => 100
  user := fun _ => "me@example.org".toList
  time := fun _ => none
  flagText := fun _ => []
  received := fun _ => 0
  caps := fun _ => [.known "fileinto"]

def exVars : Vars.Host ExMessage Int Nat where
  core := exCore
  names := [bytes "v"]
  parseInt := fun _ => none
  showInt := fun _ => []
  parseFlt := fun _ => none
  showFlt := fun _ => []
  chars := fun b => b.map fun u => Char.ofNat u.toNat
  mod := ⟨id, id, fun c => [c], fun c => [c], fun _ _ s => s⟩
  max := 100

def exFlags : FlagLang.Host ExMessage Int Nat where
  vars := exVars
  lowercase := fun t => t.map Char.toLower
  other := fun _ => Written.exOther

def exMails : MailLang.Host ExMessage Int Nat where
  asks := { flags := exFlags, lists := fun _ => [], items := fun _ _ => none, steps := fun _ => 9 }
  letters := Notify.exExt
  headers := fun _ => (Vacation.exCtx "Hi".toList).headers
  subject := fun _ => some "Hi".toList
  userFrom := fun _ => "me@example.org".toList
  envelope := fun _ => (Vacation.exCtx []).envelope
  useOrig := false
  expiry := 60
  «prefix» := "Re: ".toList
  defaultSubject := "Re".toList
  names := fun _ _ => false
  raw := fun _ _ => none
  date := fun _ => "D".toList
  id := fun _ => "<1@h>".toList

def exHost : Host ExMessage Int Nat where
  mail := exMails
  editing := ⟨fun _ => false, Char.isAlphanum, 100⟩
  put := fun _ ps => ps

/-- The texts of the header fields. -/
def exRender (w : ExMessage) : Text :=
  w.flatMap fun p => p.headers.flatMap fun h => (match h.value.parsed with | .text t => t | _ => ['?']) ++ ['\n']

def exCfg : Vm.Cfg (Text × ExMessage) (Expr.Val Int) Core.Place where
  cpuLimit := 100
  maxRedirects := 1
  maxOut := 3
  maxReceived := 10
  maxIncludes := 3
  allowed := fun c => c = .known "fileinto"
  registered := fun _ => none
  received := fun _ => 0
  own := fun q p =>
    match p with
    | .address (.address a) _ _ _ => Event.eqIgnoreAsciiCase a (exCore.user q.2)
    | _ => false
  nested := fun _ _ _ => []
  globalFlags := fun q => (Flags.flagsOf q.1).map String.ofList
  render := fun q => .message (exRender q.2)
  toBool := fun v => !isNil v
  isEmpty := isNil
  empty := .str []
  pushResult := fun w _ => w

theorem exNot : ∀ v, exCfg.toBool (if isNil v then .int 1 else .str []) = !exCfg.toBool v := by
  intro v
  show (!isNil (if isNil v = true then .int 1 else .str [])) = !(!isNil v)
  cases isNil v <;> rfl

def exInterp : Source.Interp exCfg (Script.Node Int) (Script.Node Int) (List UInt8) :=
  exHost.interp exCfg (fun v => if isNil v then .int 1 else .str []) exNot

def exScript : Vm.Script (Text × ExMessage) (Expr.Val Int) Core.Place := ⟨(exProg.code [] 0).map exInterp.lower, 1, 0⟩

theorem exProg_ok : exProg.Ok ⟨9, 9, 9⟩ [] := by
  simp [exProg, Blk.Ok, Stmt.Ok, Chain.Ok, TestE.depth]

set_option maxRecDepth 20000 in
theorem exScript_text : Whole.FromText Core.exLex Written.exArgs ⟨9, 9, 9⟩ 1000 exInterp (fun _ => exProg) exScript := by
  obtain ⟨ops, h1, h2⟩ := Whole.structure_accepted (lim := ⟨9, 9, 9⟩) (maxSize := 1000) exText_structure (by decide +kernel) exProg_ok
  refine ⟨by simp [exProg, Blk.Conts, Stmt.Conts, Chain.Conts], exProg_ok, _, ops, exText_structure, h1, ?_⟩
  rw [compile_render exProg exProg_ok] at h2
  injection h2 with h2
  rw [← h2]
  rfl

/-- Messages of a single part. -/
def ExGood (w : ExMessage) : Prop := ∃ hs, w = [⟨hs, .other⟩]

theorem exHolds : Holds exHost exCfg (.node 0 []) ExGood where
  sees := by
    rintro w ⟨hs, rfl⟩
    exact ⟨⟨⟨Tests.exOk, .leaf rfl rfl, rfl, (by decide : 1 < 3)⟩, Body.exForward, Option.isSome_iff_exists.1 rfl, fun a b => by
      show (a == b) = (b == a)
      exact Bool.beq_comm⟩, Vacation.exLetters⟩
  fits := by
    rintro w -
    refine ⟨fun f => ⟨⟨fun a d r t => by simp [exCfg, Event.eqIgnoreAsciiCase, exHost, exMails, exFlags, exVars, FlagLang.withFlags, Vars.seen, exCore], rfl, rfl⟩, rfl, by decide⟩, ?_⟩
    intro t ht h
    cases t with
    | nil => exact ht rfl
    | cons c l => simp [exHost, exMails, exFlags] at h
  good := by
    rintro w ps ⟨hs, rfl⟩ ⟨h1, h2⟩
    obtain ⟨hs', h3⟩ := h2 0 ⟨hs, .other⟩ rfl
    refine ⟨hs', ?_⟩
    match ps, h1, h3 with
    | [p], _, h3 => simpa [exHost] using h3
  seen := by
    rintro w ps - -
    rfl
  nodup := by decide

theorem exEditing : Editing exHost exCfg exProg := by
  have h1 : Accepts (FlagLang.withFlags exHost.mail.asks.flags) exDelete := ⟨by simp [exDelete, Vars.Reads], by simp [exDelete]⟩
  have h2 : Accepts (FlagLang.withFlags exHost.mail.asks.flags) exAdd := ⟨by simp [exAdd, Vars.Reads], by simp [exAdd, Vars.Reads]⟩
  have h3 : Accepts (FlagLang.withFlags exHost.mail.asks.flags) exExists := ⟨by simp [exExists, Vars.Reads], by simp [exExists]⟩
  have h4 : Accepts (FlagLang.withFlags exHost.mail.asks.flags) exFile := ⟨by simp [exFile, Vars.Reads], by simp [exFile, Vars.Reads]⟩
  refine ⟨?_, ?_, ⟨?_, ⟨?_, trivial⟩, rfl⟩, ?_, trivial⟩
  · intro n hn
    rw [List.mem_singleton] at hn
    subst hn
    refine .inl (.inl (.inr ⟨⟨by simp [Core.got], by simp [Core.got]⟩, ?_⟩))
    intro c hc
    simp only [FlagLang.withFlags, seen, exHost, exMails, exFlags, exVars, exCore, List.mem_singleton] at hc
    simp [hc, exCfg]
  · intro n hn
    rw [List.mem_singleton] at hn
    subst hn
    exact .inr ⟨h1, _, .inr rfl⟩
  · exact .inl ⟨h3, .inr (.inr ⟨by simp [exExists, Uses], .inr (by simp)⟩)⟩
  · intro n hn
    rw [List.mem_singleton] at hn
    subst hn
    exact .inl (.inl (.inr ⟨h4, by simp [Core.Command, exFile]⟩))
  · intro n hn
    rw [List.mem_singleton] at hn
    subst hn
    exact .inr ⟨h2, _, .inl rfl⟩

set_option maxRecDepth 20000 in
/-- The message without the fields `X` is filed, and at the end it is kept with another field `Y`; the host is given both. -/
theorem exRun : ((Vm.play exCfg (.new ([], Tests.exParts)) [.script ⟨false, ""⟩ exScript, .true, .true, .true, .true]).map
      fun r => Source.io r.1.tail) =
    some [.output (.event (.created 1 (.message "?\n".toList))), .input .true,
      .output (.event (.fileInto (.folder ['A'] none none false) [] 1)), .input .true,
      .output (.event (.created 2 (.message "?\nv\n".toList))), .input .true,
      .output (.event (.keep [] 2)), .input .true, .output .none] := by
  rfl

/-- A script without `keep` asks for none. -/
theorem noKeeps {H : Host ExMessage Int Nat} {ans : Nat → Bool} {t : Mime.Tree} {b : Whole.Prog Int}
    (hb : Lang.BlkIn (fun _ => True) (fun n => ∀ g, n ≠ .cmd .Keep g) b) {s s' : St ExMessage Int} {f : Bool} (h : Runs H exCfg ans t b s s' f)
    (hs : ∀ fl, .keep fl ∉ s.mail.core.acts) : ∀ fl, .keep fl ∉ s'.mail.core.acts := by
  have mail : ∀ {w : ExMessage} {n : Script.Node Int} {s s' : FlagLang.St Int} {b : Bool}, (∀ g, n ≠ .cmd .Keep g) →
      MailLang.Does H.mail exCfg w n s s' b → (∀ fl, .keep fl ∉ s.core.acts) → ∀ fl, .keep fl ∉ s'.core.acts := by
    intro w n s s' b hn h hs
    cases h with
    | flags h =>
      cases h with
      | vars h =>
        cases h with
        | core h =>
          cases h with
          | keep => exact absurd rfl (hn _)
          | _ => simpa using hs
        | set _ _ => exact hs
      | flags _ _ _ => exact hs
      | «variable» _ _ _ _ => exact hs
    | @notify _ _ _ _ res l _ _ _ ht =>
      have key : ∀ {e l}, MailLang.Takes e l → ∀ fl, .keep fl ∉ l := by
        intro e l h
        cases h <;> simp
      intro fl hfl
      rcases List.mem_append.1 hfl with h1 | h1
      · exact hs fl h1
      · exact key ht fl h1
    | vacation _ _ _ => simpa [MailLang.andDoes] using hs
  refine Lang.block_invariant (J := fun s => ∀ fl, .keep fl ∉ s.mail.core.acts) (T := Says H exCfg ans t) (D := Does H exCfg t) ?_ ?_ h hb hs
  · rintro n s b s' _ ⟨m, h, rfl⟩ hs
    cases h with
    | test h =>
      cases h with
      | asks _ _ => simpa using hs
      | _ => exact hs
    | may _ _ _ => simpa [MailLang.andDoes] using hs
    | mayNot _ _ _ => exact hs
  · intro n s s' b hn h hs
    cases h with
    | other _ h => exact mail hn h hs
    | delivers _ h _ =>
      refine mail hn h ?_
      unfold written
      split
      · simpa [MailLang.andDoes] using hs
      · exact hs
    | _ => exact hs

/-- Only `stop` ends a script. -/
theorem does_stop {H : Host ExMessage Int Nat} {t : Mime.Tree} {n : Script.Node Int} {s s' : St ExMessage Int}
    (h : Does H exCfg t n s s' true) : ∃ g, n = .cmd .Stop g := by
  have mail : ∀ {w : ExMessage} {s s' : FlagLang.St Int}, MailLang.Does H.mail exCfg w n s s' true → ∃ g, n = .cmd .Stop g := by
    intro w s s' h
    cases h with
    | flags h =>
      cases h with
      | vars h =>
        cases h with
        | core h =>
          cases h with
          | stop => exact ⟨_, rfl⟩
  cases h with
  | other _ h => exact mail h
  | delivers _ h _ => exact mail h

/-- `Y` is a name that `addheader` takes. -/
theorem exName (s : St ExMessage Int) : Written.NewName (look exHost s) exHost.editing (.text (bytes "Y")) 2 :=
  ⟨['Y'], ['Y'], rfl, by decide +kernel, by simp, rfl, rfl⟩

/-- At the end the message is another than the host knows. -/
theorem exEdited {ans : Nat → Bool} {s st : St ExMessage Int} {b : Bool} (h : Runs exHost exCfg ans (.node 0 []) exProg s st b) :
    st.edited = true := by
  have act : ∀ {n : Script.Node Int} {s s' : St ExMessage Int}, (∀ g, n ≠ .cmd .Stop g) →
      ¬ Lang.RunStmt (Says exHost exCfg ans (.node 0 [])) (Does exHost exCfg (.node 0 [])) (.act [n]) s s' true := by
    intro n s s' hn h
    cases h with
    | act h =>
      cases h with
      | ends h => exact absurd (does_stop h) (by simpa using hn)
      | cons _ h => cases h
  cases h with
  | ends h => exact absurd h (act (by simp))
  | cons _ h =>
  cases h with
  | ends h => exact absurd h (act (by simp))
  | cons _ h =>
  cases h with
  | ends h =>
    cases h with
    | cond h =>
      cases h with
      | one _ h =>
        cases h with
        | ends h => exact absurd h (act (by simp))
        | cons _ h => cases h
  | cons _ h =>
  cases h with
  | ends h => exact absurd h (act (by simp))
  | cons h h' =>
  cases h'
  cases h with
  | act h =>
  cases h with
  | cons h h' =>
  cases h'
  cases h with
  | other _ h =>
    cases h with
    | flags h =>
      cases h with
      | vars h =>
        cases h with
        | core h => cases h
      | flags h _ _ => simp at h
      | «variable» h _ _ _ => simp at h
  | delivers h => simp [Delivers] at h
  | stays h => simp [Delivers] at h
  | adds => rfl
  | addsNot h1 h2 =>
    simp only [exAdd, List.cons.injEq, Arg.val.injEq, and_true] at h1
    obtain ⟨rfl, -⟩ := h1
    exact absurd (exName _) (h2 2)

set_option maxRecDepth 20000 in
/-- All hypotheses of `edits_text_partial` together. -/
example : ∃ r m st stopped l, Vm.Hist exCfg (.new ([], Tests.exParts)) (.input (.script ⟨false, ""⟩ exScript) :: r) m ∧
    Runs exHost exCfg (fun _ => false) (.node 0 []) exProg (start exHost Tests.exParts) st stopped ∧ Finally exCfg st l ∧
    Base.told (Source.io r) = Base.sent st.mail.core.acts ++ l ∧
    Base.told (Source.io r) = [.created 1 (.message "?\n".toList), .fileInto (.folder ['A'] none none false) [] 1,
      .created 2 (.message "?\nv\n".toList), .keep [] 2] := by
  have hsome : (Vm.play exCfg (.new ([], Tests.exParts)) [.script ⟨false, ""⟩ exScript, .true, .true, .true, .true]).isSome = true := by
    decide +kernel
  obtain ⟨⟨h, c⟩, hp⟩ := Option.isSome_iff_exists.mp hsome
  have hh : Vm.Hist exCfg (.new ([], Tests.exParts)) h (.waiting c) := Vm.play_hist _ .start hp
  have hio := exRun
  obtain ⟨t, ht⟩ := Source.play_head hp
  simp only at ht
  subst ht
  rw [hp] at hio
  simp only [Option.map_some, List.tail_cons, Option.some.injEq] at hio
  have hA : Base.Answers (Source.io t) := by
    intro i hi
    rw [hio] at hi
    simp at hi
    exact .inl hi
  have hQ : Base.Answered (fun _ => false) (Source.io t) := by
    intro h0 p i h1 e
    rw [hio] at e
    rcases h0 with _ | ⟨a1, _ | ⟨a2, _ | ⟨a3, _ | ⟨a4, _ | ⟨a5, _ | ⟨a6, _ | ⟨a7, _ | ⟨a8, a⟩⟩⟩⟩⟩⟩⟩⟩ <;> simp at e
    obtain ⟨-, -, -, -, -, -, -, -, e⟩ := e
    have := congrArg List.length e
    simp at this
    omega
  have hC : .output (.error .cpuLimit) ∉ Source.io t := by
    rw [hio]
    simp
  have hN : .output .none ∈ Source.io t := by
    rw [hio]
    simp
  have hE : ∀ v, exCfg.isEmpty v = true → v = exCfg.empty := by
    intro v hv
    show v = .str []
    change isNil v = true at hv
    unfold isNil at hv
    split at hv
    · rfl
    · cases hv
  obtain ⟨st, b, h4, h5⟩ := edits_text_partial (src := fun _ => exProg) exHolds ⟨_, rfl⟩ hE rfl hh
    ⟨by decide +kernel, by decide +kernel⟩ hA hQ hC exScript_text (by simp [exCfg]) exEditing
  have hk := noKeeps (by simp [exProg, Lang.BlkIn, Lang.StmtIn, Lang.ChainIn, Lang.TestIn]) h4 (by simp [start, FlagLang.start])
  obtain ⟨-, l, h6, -, h7⟩ := h5 (fun a fl b e => absurd (by rw [e]; simp) (hk fl))
    ⟨fun fl hfl => absurd hfl (hk fl), fun _ => .inl (exEdited h4)⟩
  exact ⟨t, _, st, b, l, hh, h4, h6, h7 hN, by rw [hio]; rfl⟩

end Sieve.EditLang
