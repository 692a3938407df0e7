import Verif.FlagLangModel
import Verif.LangSpec
import Verif.VarsSpec
import Verif.FlagsProps
import Verif.WrittenOtherProps

/-!
# What a script with flags says

RFC 5232 on top of `VarsSpec`: the script has flags, which `setflag`, `addflag` and `removeflag` without a variable change, and which
`keep`, `fileinto` and the implicit keep give to the message; flags are compared ignoring case.  The other tests as RFC 5260, 5235, 5490
and 5435 have them.
-/

namespace Sieve.FlagLang

open Sieve.Args Sieve.Fields Sieve.Vars

variable {W V F N : Type} [DecidableEq F]

/-- What commands and tests see: the flags of the script are those of the moment, all else is as without flags. -/
def withFlags (H : Host W F N) : Vars.Host (Text × W) F N :=
  { H.vars with
    core := {
      env := fun q => { H.vars.core.env q.2 with flags := some (.str q.1) }
      fuel := fun q => H.vars.core.fuel q.2
      size := fun q => H.vars.core.size q.2
      user := fun q => H.vars.core.user q.2
      time := H.vars.core.time
      flagText := fun q => q.1
      received := fun q => H.vars.core.received q.2
      caps := H.vars.core.caps } }

/-- The same for tests, which find variables by their names in any case. -/
def see (H : Host W F N) (q : Store F × (Text × W)) : Written.Env F N :=
  { (seen (withFlags H)).env q with
    getVariable := fun
      | .text n => q.1 (lower n)
      | _ => none }

/-! ## Tests -/

/-- The part of a date that the test names. -/
def PartNamed (part : List UInt8) (dp : Tests.DatePart) : Prop := ∃ n, Written.DateName n dp ∧ lower part = bytes n

/-- The test is true, with the variables, flags and message `q`, of a message with the parts `t`. -/
def IsTrue [DecidableEq N] (H : Host W F N) (q : Store F × (Text × W)) (t : Mime.Tree) : Word → Got F → Prop
  | .HasFlag, g => ∃ a, Written.FlagVar (see H q) g a ∧ a ≠ .str [] ∧ ∃ f ∈ Flags.splitSp (Tests.text (see H q).x.flt a),
      ∃ k, Written.FlagKey (see H q) g k ∧ Written.Meets (see H q).x g (.text f) (.text k)
  | .Date, g => ∃ w part ks dp, g.pos = [.val w, .text part, .vals ks] ∧ PartNamed part dp ∧ ∃ hd, Written.Seen (see H q) g t [w] hd ∧
      ∃ d d' s, Tests.FieldDate (see H q).x (H.other q.2.2).dates hd.value d ∧ Written.Moved (H.other q.2.2).dates g d d' ∧
        Tests.Shows (H.other q.2.2).dates d' dp s ∧ ∃ k ∈ ks, Written.Meets (see H q).x g (.text s) (.val ((see H q).eval k))
  | .CurrentDate, g => ∃ part ks dp, g.pos = [.text part, .vals ks] ∧ PartNamed part dp ∧
      ∃ d s, Written.Now (H.other q.2.2) g d ∧ Tests.Shows (H.other q.2.2).dates d dp s ∧
        ∃ k ∈ ks, Written.Meets (see H q).x g (.text s) (.val ((see H q).eval k))
  | .SpamTest, g => ∃ v, g.pos = [.val v] ∧ ∃ n, Written.SpamShown (see H q) (H.other q.2.2) g n ∧
      Written.Meets (see H q).x g (.val (.int n)) (.val ((see H q).eval v))
  | .VirusTest, g => ∃ v, g.pos = [.val v] ∧
      Written.Meets (see H q).x g (.val (.int (H.other q.2.2).virus.number)) (.val ((see H q).eval v))
  | .Metadata, g => ∃ mb an ks, g.pos = [.val mb, .val an, .vals ks] ∧
      ∃ v, Tests.Stored (see H q).x (H.other q.2.2).stored
        (.mailbox (Tests.text (see H q).x.flt ((see H q).eval mb)) (Tests.text (see H q).x.flt ((see H q).eval an))) v ∧
        ∃ k ∈ ks, Written.Meets (see H q).x g (.text v) (.val ((see H q).eval k))
  | .ServerMetadata, g => ∃ an ks, g.pos = [.val an, .vals ks] ∧
      ∃ v, Tests.Stored (see H q).x (H.other q.2.2).stored (.server (Tests.text (see H q).x.flt ((see H q).eval an))) v ∧
        ∃ k ∈ ks, Written.Meets (see H q).x g (.text v) (.val ((see H q).eval k))
  | .NotifyMethodCapability, g => ∃ uri cap ks, g.pos = [.val uri, .val cap, .vals ks] ∧
      (see H q).x.eqIgnoreCase (Tests.text (see H q).x.flt ((see H q).eval cap)) "online".toList = true ∧
      Tests.Supports (H.other q.2.2).mailto (H.other q.2.2).notifyUris
        ((see H q).x.utf8 (Tests.text (see H q).x.flt ((see H q).eval uri))) ∧
      ∃ k ∈ ks, Written.Meets (see H q).x g (.text "maybe".toList) (.val ((see H q).eval k))
  | w, g => Vars.IsTrue ((seen (withFlags H)).env q) (H.vars.core.size q.2.2) t w g

/-- Tests of the language.  `:regex` is not what it should be for flags and dates (C118, C119), and so are Julian days before 1858. -/
def Test : Script.Node F → Prop
  | .test .HasFlag g => Written.Comparing g ∧ ¬ Uses g .Regex
  | .test .Date g => Written.Comparing g ∧ ¬ Uses g .Regex ∧ ∀ part, .text part ∈ g.pos → lower part ≠ bytes "julian"
  | .test .CurrentDate g => Written.Comparing g ∧ ¬ Uses g .Regex ∧ ∀ part, .text part ∈ g.pos → lower part ≠ bytes "julian"
  | .test .SpamTest g => Written.Comparing g
  | .test .VirusTest g => Written.Comparing g
  | .test .Metadata g => Written.Comparing g
  | .test .ServerMetadata g => Written.Comparing g
  | .test .NotifyMethodCapability g => Written.Comparing g
  | n => Vars.Test n

/-- The same, with strings that are accepted. -/
def FlagTest (H : Host W F N) (n : Script.Node F) : Prop := Accepts (withFlags H) (Core.got n) ∧ Test n

/-! ## Commands -/

/-- The variables, the flags, the actions so far, and the number of times the message was sent. -/
structure St (F : Type) where
  vars : Store F
  flags : Text
  core : Core.St

/-- Flags one after the other, each that is not there yet at the end. -/
inductive Added (lower : Text → Text) : List Text → List Text → List Text → Prop where
  | nil {old} : Added lower old [] old
  | has {old t ts l} : (∃ f ∈ old, lower f = lower t) → Added lower old ts l → Added lower old (t :: ts) l
  | new {old t ts l} : (¬ ∃ f ∈ old, lower f = lower t) → Added lower (old ++ [t]) ts l → Added lower old (t :: ts) l

/-- What a command makes of the flags `old`; `ts` are those it names.  The order after `removeflag` is left open. -/
inductive Makes (lower : Text → Text) : Word → List Text → List Text → List Text → Prop where
  | set {old ts l} : Added lower [] ts l → Makes lower .SetFlag old ts l
  | add {old ts l} : Added lower old ts l → Makes lower .AddFlag old ts l
  | remove {old ts l k} : (∀ f, f ∈ k ↔ f ∈ old ∧ ¬ ∃ t ∈ ts, lower f = lower t) → k.Sublist old → l.Perm k → Makes lower .RemoveFlag old ts l

/-- The texts are flags: one text with any number of them, or each of several texts is one.  And `removeflag` has no flag twice to remove. -/
def Proper (lower : Text → Text) (ws : Char → Bool) (c : Word) (old : List Text) (texts : List Text) : Prop :=
  Flags.CleanList ws texts ∧ (c = .RemoveFlag → Flags.Distinct lower old)

/-- The text of the flags after the command, cut to the limit of variables.  What becomes of texts that are not flags is left open (C24). -/
def After (H : Host W F N) (q : Store F × (Text × W)) (c : Word) (old : Text) (vs : List (Val F)) (r : Text) : Prop :=
  ∃ texts ts, texts = vs.map (fun v => Tests.text (see H q).x.flt ((see H q).eval v)) ∧ Written.FlagsIn (see H q).x.ws texts ts ∧
    (Proper H.lowercase (see H q).x.ws c (Flags.flagsOf old) texts →
      ∃ l, Makes H.lowercase c (Flags.flagsOf old) ts l ∧ LongestPrefix H.vars.max (Flags.joinSp l) r)

/-- One command; the flag says whether the script ends. -/
inductive Does (H : Host W F N) (cfg : Vm.Cfg (Text × W) V Core.Place) (w : W) : Script.Node F → St F → St F → Bool → Prop where
  | vars {n s v b} : Vars.Does (withFlags H) cfg (s.flags, w) n ⟨s.vars, s.core⟩ v b → Does H cfg w n s ⟨v.vars, s.flags, v.core⟩ b
  | flags {c g s vs r} : c ∈ [Word.SetFlag, .AddFlag, .RemoveFlag] → g.pos = [.vals vs] →
      After H (s.vars, (s.flags, w)) c s.flags vs r → Does H cfg w (.cmd c g) s { s with flags := r } false
  | variable {c g s n vs v r} : c ∈ [Word.SetFlag, .AddFlag, .RemoveFlag] → g.pos = [.text n, .vals vs] → s.vars (lower n) = some v →
      After H (s.vars, (s.flags, w)) c (Tests.text (see H (s.vars, (s.flags, w))).x.flt v) vs r →
      Does H cfg w (.cmd c g) s { s with vars := fun m => if m = lower n then some (.str r) else s.vars m } false

/-- Commands of the language, whose extensions are allowed. -/
def FlagCmd (H : Host W F N) (cfg : Vm.Cfg (Text × W) V Core.Place) (n : Script.Node F) : Prop :=
  (Accepts (withFlags H) (Core.got n) ∧ ∃ c g, n = .cmd c g ∧ c ∈ [Word.SetFlag, .AddFlag, .RemoveFlag] ∧
    ((∃ vs, g.pos = [.vals vs]) ∨ ∃ m vs, g.pos = [.text m, .vals vs] ∧ lower m ∈ H.vars.names)) ∨
  VarCmd (withFlags H) cfg n

/-- A single test; it changes nothing. -/
def Says [DecidableEq N] (H : Host W F N) (w : W) (t : Mime.Tree) (n : Script.Node F) (s : St F) (b : Bool) (s' : St F) : Prop :=
  s' = s ∧ ∃ c g, n = .test c g ∧ (b = true ↔ IsTrue H (s.vars, (s.flags, w)) t c g)

/-- Scripts of the language. -/
abbrev Flagged (H : Host W F N) (cfg : Vm.Cfg (Text × W) V Core.Place) (b : Whole.Prog F) : Prop :=
  Lang.BlkIn (FlagTest H) (FlagCmd H cfg) b

/-- What a script does. -/
abbrev Runs [DecidableEq N] (H : Host W F N) (cfg : Vm.Cfg (Text × W) V Core.Place) (w : W) (t : Mime.Tree) (b : Whole.Prog F)
    (s s' : St F) (f : Bool) : Prop := Lang.RunBlk (Says H w t) (Does H cfg w) b s s' f

/-- Before the script there are no flags. -/
def start (H : Host W F N) : St F := ⟨(Vars.start (withFlags H)).vars, [], ⟨0, []⟩⟩

end Sieve.FlagLang
