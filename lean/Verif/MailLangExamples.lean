import Verif.MailLangProps
import Verif.AskLangExamples

/-!
# A text with a vacation reply and notifications, compiled and run
-/

namespace Sieve.MailLang

open Sieve.Args Sieve.Fields Sieve.Compile Sieve.Lex Sieve.Script Sieve.Vars
open Sieve.FlagLang (Text)

def exText : List UInt8 :=
  bytes "require [\"vacation\",\"enotify\",\"fcc\"];vacation \"away\";notify \"tel:1\";notify :fcc \"S\" \"mailto:a@b\";"

theorem exText_items : IsText 100 exText [.word .Require, .bracketOpen, .str (bytes "vacation"), .comma, .str (bytes "enotify"), .comma,
    .str (bytes "fcc"), .bracketClose,
    .semicolon, .word .Vacation, .str (bytes "away"), .semicolon, .word .Notify, .str (bytes "tel:1"), .semicolon,
    .word .Notify, .tag .Fcc, .str (bytes "S"), .str (bytes "mailto:a@b"), .semicolon] := by
  have e : exText = bytes "require" ++ 32 :: 91 :: 34 :: (escape (bytes "vacation") ++ 34 :: 44 :: 34 :: (escape (bytes "enotify") ++
      34 :: 44 :: 34 :: (escape (bytes "fcc") ++ 34 :: 93 :: 59 :: (bytes "vacation" ++ 32 :: 34 :: (escape (bytes "away") ++ 34 :: 59 :: (bytes "notify" ++ 32 :: 34 ::
      (escape (bytes "tel:1") ++ 34 :: 59 :: (bytes "notify" ++ 32 :: 58 :: (bytes "fcc" ++ 32 :: 34 :: (escape (bytes "S") ++ 34 :: 32 :: 34 ::
      (escape (bytes "mailto:a@b") ++ 34 :: [59]))))))))))) := by decide +kernel
  have plain : ∀ c : List UInt8, 92 ∉ c → Plain c := by
    intro c h
    refine ⟨fun u e => h (by simp [e]), fun u d v e => absurd (by simp [e]) h⟩
  rw [e]
  exact .word (by decide +kernel) ⟨32, _, rfl, by decide⟩ (.space (by decide) (.punct rfl (.str (plain _ (by decide +kernel)) (by decide +kernel)
    (.punct rfl (.str (plain _ (by decide +kernel)) (by decide +kernel)
    (.punct rfl (.str (plain _ (by decide +kernel)) (by decide +kernel) (.punct rfl (.punct rfl
    (.word (by decide +kernel) ⟨32, _, rfl, by decide⟩ (.space (by decide) (.str (plain _ (by decide +kernel)) (by decide +kernel) (.punct rfl
    (.word (by decide +kernel) ⟨32, _, rfl, by decide⟩ (.space (by decide) (.str (plain _ (by decide +kernel)) (by decide +kernel) (.punct rfl
    (.word (by decide +kernel) ⟨32, _, rfl, by decide⟩ (.space (by decide) (.tag (by decide +kernel) ⟨32, _, rfl, by decide⟩ (.space (by decide)
    (.str (plain _ (by decide +kernel)) (by decide +kernel) (.space (by decide) (.str (plain _ (by decide +kernel)) (by decide +kernel)
    (.punct rfl .nil)))))))))))))))))))))))))

def exAway : Got Int := ⟨[], [.val (.text (bytes "away"))]⟩

def exTel : Got Int := ⟨[], [.val (.text (bytes "tel:1"))]⟩

def exMail : Got Int := ⟨[(.Fcc, .val (.text (bytes "S")))], [.val (.text (bytes "mailto:a@b"))]⟩

def exNames : List (List UInt8) := [bytes "vacation", bytes "enotify", bytes "fcc"]

def exProg : Whole.Prog Int :=
  .cons (.act [.require exNames]) (.cons (.vac (.cmd .Vacation exAway) (.cmd .Vacation exAway))
    (.cons (.act [.cmd .Notify exTel]) (.cons (.act [.cmd .Notify exMail]) .nil)))

theorem exText_structure : Whole.Structure Core.exLex Written.exArgs exText exProg := by
  obtain ⟨ts, h1, h2⟩ := lex_text Core.exLex rfl exText_items
  have e : ts = [.ident .Require, .bracketOpen, .string (bytes "vacation"), .comma, .string (bytes "enotify"), .comma,
      .string (bytes "fcc"), .bracketClose, .semicolon,
      .ident .Vacation, .string (bytes "away"), .semicolon, .ident .Notify, .string (bytes "tel:1"), .semicolon,
      .ident .Notify, .tag .Fcc, .string (bytes "S"), .string (bytes "mailto:a@b"), .semicolon] := by
    rw [lex_eq_lexN _ 200 _ _ (by decide +kernel)] at h1
    rw [← (Prod.mk.inj h1).1]
    decide +kernel
  refine ⟨_, ts, [.require exNames, .cmd .Vacation exAway, .cmd .Notify exTel, .cmd .Notify exMail], exText_items, h1, h2,
    (script_iff _ _ _).1 ?_, rfl⟩
  rw [e]
  decide +kernel

def exHost : Host Unit Int Nat where
  asks := AskLang.exHost
  letters := Notify.exExt
  headers := fun _ => (Vacation.exCtx "Hi".toList).headers
  subject := fun _ => some "Hi".toList
  userFrom := fun _ => "me@example.org".toList
  envelope := fun _ => (Vacation.exCtx []).envelope
  useOrig := false
  expiry := 60
  «prefix» := "Re: ".toList
  defaultSubject := "Re".toList
  names := fun _ _ => false
  raw := fun _ _ => none
  date := fun _ => "D".toList
  id := fun _ => "<1@h>".toList

abbrev exCfg : Vm.Cfg (Text × Unit) (Expr.Val Int) Core.Place := FlagLang.exCfg

def exInterp : Source.Interp exCfg (Script.Node Int) (Script.Node Int) (List UInt8) :=
  exHost.interp exCfg (fun v => if isNil v then .int 1 else .str []) FlagLang.exNot

def exScript : Vm.Script (Text × Unit) (Expr.Val Int) Core.Place := ⟨(exProg.code [] 0).map exInterp.lower, 1, 0⟩

theorem exProg_ok : exProg.Ok ⟨9, 9, 9⟩ [] := by
  simp [exProg, Blk.Ok, Stmt.Ok]

theorem exScript_text : Whole.FromText Core.exLex Written.exArgs ⟨9, 9, 9⟩ 1000 exInterp (fun _ => exProg) exScript := by
  obtain ⟨ops, h1, h2⟩ := Whole.structure_accepted (lim := ⟨9, 9, 9⟩) (maxSize := 1000) exText_structure (by decide +kernel) exProg_ok
  refine ⟨by simp [exProg, Blk.Conts, Stmt.Conts], exProg_ok, _, ops, exText_structure, h1, ?_⟩
  rw [compile_render exProg exProg_ok] at h2
  injection h2 with h2
  rw [← h2]
  rfl

theorem exSees : Sees exHost () (.node 0 []) := ⟨AskLang.exSees, Vacation.exLetters⟩

theorem exMailing : Mailing exHost exCfg exProg := by
  have h1 : Accepts (FlagLang.withFlags exHost.asks.flags) exAway := ⟨by simp [exAway, Vars.Reads], by simp [exAway]⟩
  have h2 : Accepts (FlagLang.withFlags exHost.asks.flags) exTel := ⟨by simp [exTel, Vars.Reads], by simp [exTel]⟩
  have h3 : Accepts (FlagLang.withFlags exHost.asks.flags) exMail := ⟨by simp [exMail, Vars.Reads], by simp [exMail, Vars.Reads]⟩
  refine ⟨?_, ⟨.inr ⟨h1, _, rfl⟩, .inr ⟨h1, _, .inr rfl⟩⟩, ?_, ?_, trivial⟩
  · intro n hn
    rw [List.mem_singleton] at hn
    subst hn
    refine .inl (.inr ⟨⟨by simp [Core.got], by simp [Core.got]⟩, ?_⟩)
    intro c hc
    simp only [FlagLang.withFlags, seen, exHost, AskLang.exHost, FlagLang.exHost, Vars.exHost, Core.exHost, List.mem_singleton] at hc
    simp [hc, FlagLang.exCfg]
  · intro n hn
    rw [List.mem_singleton] at hn
    subst hn
    exact .inr ⟨h2, _, .inl rfl⟩
  · intro n hn
    rw [List.mem_singleton] at hn
    subst hn
    exact .inr ⟨h3, _, .inl rfl⟩

def lines (l : List String) : Text := (l.flatMap fun s => s.toList ++ "\r\n".toList)

/-- The reply. -/
def exReply : Text := lines ["From: me@example.org", "To: a@x", "Subject: Re: Hi", "Date: D", "Message-ID: <1@h>", "Auto-Submitted: auto-replied",
  "Content-type: text/plain; charset=utf-8", ""] ++ "away".toList

/-- The message of the second notification. -/
def exNote : Text := lines ["From: me@example.org", "To: <a@b>", "Date: D", "Message-ID: <1@h>", "Importance: Normal", "X-Priority: 3 (Normal)",
  "Subject: Hi", "Auto-Submitted: auto-notified", "X-Sieve: yes", "Content-type: text/plain; charset=utf-8", ""] ++ "Hi".toList

set_option maxRecDepth 20000 in
/-- The host is asked whether it has replied before, and told the reply, the notification that is its own, the message of the other one and
where its copy goes, and that the message is kept. -/
theorem exRun : ((Vm.play exCfg (.new ([], ())) [.script ⟨false, ""⟩ exScript, .false, .true, .true, .true, .true, .true, .true, .true]).map
      fun r => Source.io r.1.tail) =
    some [.output (.event (.query (.duplicate ⟨"_va@xaway".toList, 60, false⟩))), .input .false,
      .output (.event (.created 1 (.message exReply))), .input .true,
      .output (.event (.send .vacation (.address (.address "a@x".toList) .never .default .none) 1)), .input .true,
      .output (.event (.notify (.notice "tel:1".toList none .normal [] "Hi".toList))), .input .true,
      .output (.event (.created 2 (.message exNote))), .input .true,
      .output (.event (.send .notify (.group ["a@b".toList]) 2)), .input .true,
      .output (.event (.fileInto (.folder ['S'] none none false) [] 2)), .input .true,
      .output (.event (.keep [] 0)), .input .true, .output .none] := by
  rfl

set_option maxRecDepth 20000 in
/-- The host has replied before. -/
theorem exRun_again : ((Vm.play exCfg (.new ([], ())) [.script ⟨false, ""⟩ exScript, .true, .true, .true, .true, .true, .true]).map
      fun r => Source.io r.1.tail) =
    some [.output (.event (.query (.duplicate ⟨"_va@xaway".toList, 60, false⟩))), .input .true,
      .output (.event (.notify (.notice "tel:1".toList none .normal [] "Hi".toList))), .input .true,
      .output (.event (.created 1 (.message exNote))), .input .true,
      .output (.event (.send .notify (.group ["a@b".toList]) 1)), .input .true,
      .output (.event (.fileInto (.folder ['S'] none none false) [] 1)), .input .true,
      .output (.event (.keep [] 0)), .input .true, .output .none] := by
  rfl

/-- A script without `keep` asks for none. -/
theorem noKeeps {H : Host Unit Int Nat} {ans : Nat → Bool} {t : Mime.Tree} {b : Whole.Prog Int}
    (hb : Lang.BlkIn (fun _ => True) (fun n => ∀ g, n ≠ .cmd .Keep g) b) {s s' : FlagLang.St Int} {f : Bool} (h : Runs H exCfg ans () t b s s' f)
    (hs : ∀ fl, .keep fl ∉ s.core.acts) : ∀ fl, .keep fl ∉ s'.core.acts := by
  refine Lang.block_invariant (J := fun s => ∀ fl, .keep fl ∉ s.core.acts) (T := Says H exCfg ans () t) (D := Does H exCfg ()) ?_ ?_ h hb hs
  · intro n s b s' _ h hs
    cases h with
    | test h =>
      cases h with
      | asks _ _ => simpa using hs
      | _ => exact hs
    | may _ _ _ => simpa [andDoes] using hs
    | mayNot _ _ _ => exact hs
  · intro n s s' b hn h hs
    cases h with
    | flags h =>
      cases h with
      | vars h =>
        cases h with
        | core h =>
          cases h with
          | keep => exact absurd rfl (hn _)
          | _ => simpa using hs
        | set _ _ => exact hs
      | flags _ _ _ => exact hs
      | «variable» _ _ _ _ => exact hs
    | @notify _ _ _ _ res l _ _ _ ht =>
      have key : ∀ {e l}, Takes e l → ∀ fl, .keep fl ∉ l := by
        intro e l h
        cases h <;> simp
      intro fl hfl
      rcases List.mem_append.1 hfl with h1 | h1
      · exact hs fl h1
      · exact key ht fl h1
    | vacation _ _ _ => simpa [andDoes] using hs

theorem exKeeps {ans : Nat → Bool} {st : FlagLang.St Int} {b : Bool}
    (h : Runs exHost exCfg ans () (.node 0 []) exProg (FlagLang.start exHost.asks.flags) st b) : Base.KeepsLast st.core.acts := by
  have hk := noKeeps (by simp [exProg, Lang.BlkIn, Lang.StmtIn]) h (by simp [FlagLang.start])
  intro a fl b e
  exact absurd (by rw [e]; simp) (hk fl)

set_option maxRecDepth 20000 in
/-- All hypotheses of `mails_text_partial` together: the host has not replied before. -/
example : ∃ r m st stopped l, Vm.Hist exCfg (.new ([], ())) (.input (.script ⟨false, ""⟩ exScript) :: r) m ∧
    Runs exHost exCfg (fun _ => false) () (.node 0 []) exProg (FlagLang.start exHost.asks.flags) st stopped ∧
    Core.Finally (FlagLang.withFlags exHost.asks.flags).core (st.flags, ()) st.core.acts l ∧
    Base.told (Source.io r) = Base.sent st.core.acts ++ l ∧
    Base.told (Source.io r) = [.query (.duplicate ⟨"_va@xaway".toList, 60, false⟩), .created 1 (.message exReply),
      .send .vacation (.address (.address "a@x".toList) .never .default .none) 1, .notify (.notice "tel:1".toList none .normal [] "Hi".toList),
      .created 2 (.message exNote), .send .notify (.group ["a@b".toList]) 2, .fileInto (.folder ['S'] none none false) [] 2, .keep [] 0] := by
  have hsome : (Vm.play exCfg (.new ([], ())) [.script ⟨false, ""⟩ exScript, .false, .true, .true, .true, .true, .true, .true, .true]).isSome =
    true := by decide +kernel
  obtain ⟨⟨h, c⟩, hp⟩ := Option.isSome_iff_exists.mp hsome
  have hh : Vm.Hist exCfg (.new ([], ())) h (.waiting c) := Vm.play_hist _ .start hp
  have hio := exRun
  obtain ⟨t, ht⟩ := Source.play_head hp
  simp only at ht
  subst ht
  rw [hp] at hio
  simp only [Option.map_some, List.tail_cons, Option.some.injEq] at hio
  have hA : Base.Answers (Source.io t) := by
    intro i hi
    rw [hio] at hi
    simp at hi
    tauto
  have hQ : Base.Answered (fun _ => false) (Source.io t) := by
    intro h0 p i h1 e
    rw [hio] at e
    rcases h0 with _ | ⟨a1, _ | ⟨a2, _ | ⟨a3, _ | ⟨a4, _ | ⟨a5, _ | ⟨a6, _ | ⟨a7, _ | ⟨a8, _ | ⟨a9, _ | ⟨a10, _ | ⟨a11, _ | ⟨a12, _ | ⟨a13,
      _ | ⟨a14, _ | ⟨a15, _ | ⟨a16, a⟩⟩⟩⟩⟩⟩⟩⟩⟩⟩⟩⟩⟩⟩⟩⟩ <;> simp at e
    · obtain ⟨-, rfl, -⟩ := e
      simp
    · obtain ⟨-, -, -, -, -, -, -, -, -, -, -, -, -, -, -, -, e⟩ := e
      have := congrArg List.length e
      simp at this
      omega
  have hC : .output (.error .cpuLimit) ∉ Source.io t := by
    rw [hio]
    simp
  have hN : .output .none ∈ Source.io t := by
    rw [hio]
    simp
  have hE : ∀ v, exCfg.isEmpty v = true → v = exCfg.empty := by
    intro v hv
    show v = .str []
    change isNil v = true at hv
    unfold isNil at hv
    split at hv
    · rfl
    · cases hv
  obtain ⟨st, b, h4, h5⟩ := mails_text_partial (src := fun _ => exProg) exSees FlagLang.exFits hE rfl hh
    ⟨by decide +kernel, by decide +kernel⟩ hA hQ hC exScript_text (by simp [FlagLang.exCfg]) exMailing
  obtain ⟨-, l, h6, -, h7⟩ := h5 (exKeeps h4)
  exact ⟨t, _, st, b, l, hh, h4, h6, h7 hN, by rw [hio]; rfl⟩

end Sieve.MailLang
