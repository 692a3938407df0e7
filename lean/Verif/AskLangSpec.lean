import Verif.AskLangModel
import Verif.FlagLangSpec
import Verif.OtherTestsProps
import Verif.BodyProps

/-!
# What a script with questions says

RFC 5490, 8579 and 9042 (mailboxes), 7352 (`duplicate`), 6134 (`:list`), 5173 (`body`), 5183 (`environment`), 5463 (`ihave`), 5435
(`valid_notify_method`) on top of `FlagLangSpec`: a test may be a question, and it is true exactly if the host says so.  Nothing is asked
if there is nothing to ask about.
-/

namespace Sieve.AskLang

open Sieve.Args Sieve.Fields Sieve.Vars
open Sieve.FlagLang (Text)

variable {W V F N : Type} [DecidableEq F]

/-- The text of an argument at that moment. -/
def said (H : Host W F N) (q : Store F × (Text × W)) (v : Val F) : Text :=
  Tests.text (FlagLang.see H.flags q).x.flt ((FlagLang.see H.flags q).eval v)

/-! ## Questions -/

/-- The texts that a test looks at. -/
inductive Value [DecidableEq N] (H : Host W F N) (q : Store F × (Text × W)) (t : Mime.Tree) (g : Got F) : Word → Text → Prop where
  | header {hs a hd v} : g.pos = [.vals hs, a] → Written.Seen (FlagLang.see H.flags q) g t hs hd → Written.Reads (FlagLang.see H.flags q) g hd v →
      Value H q t g .Header v
  | address {hs a hd p v} : g.pos = [.vals hs, a] → Written.Seen (FlagLang.see H.flags q) g t hs hd → Written.Part g p →
      Tests.AddressValue (FlagLang.see H.flags q).x p hd.value v → Value H q t g .Address v
  | envelope {ns a f w n p z v} : g.pos = [.texts ns, a] → f ∈ (FlagLang.see H.flags q).envelope → w ∈ ns → Written.FieldName n f.1 →
      lower w = bytes n → Written.Part g p → Written.ZoneIs g z →
      Tests.EnvelopeValue (FlagLang.see H.flags q).x p (z.map (FlagLang.see H.flags q).shift) f.1 (Tests.text (FlagLang.see H.flags q).x.flt f.2) v →
      Value H q t g .Envelope v
  | string {ss a s} : g.pos = [.vals ss, a] → s ∈ ss → Value H q t g .String (said H q s)

/-- What the host is asked by a test. -/
inductive Question [DecidableEq N] (H : Host W F N) (q : Store F × (Text × W)) (t : Mime.Tree) (g : Got F) : Word → Core.Place → Prop where
  | mailboxes {vs} : g.pos = [.vals vs] → Question H q t g .MailboxExists (.mailboxes (vs.map fun v => .name (said H q v)) [])
  | ids {vs} : g.pos = [.vals vs] → Question H q t g .MailboxIdExists (.mailboxes (vs.map fun v => .id (said H q v)) [])
  | uses {vs} : g.pos = [.vals vs] → Question H q t g .SpecialUseExists (.mailboxes [] (vs.map (said H q)))
  | usesOf {m vs} : g.pos = [.vals [m], .vals vs] → Question H q t g .SpecialUseExists (.mailboxes [.name (said H q m)] (vs.map (said H q)))
  | duplicate {id d} : Written.DupId (FlagLang.see H.flags q) (H.flags.other q.2.2) g t id →
      (∀ v, (.Handle, .val v) ∈ g.tags → d.id = said H q v ++ id) → (¬ Uses g .Handle → d.id = id) →
      (∀ s, (.Seconds, .num s) ∈ g.tags → d.expiry = s) → (¬ Uses g .Seconds → d.expiry = (H.flags.other q.2.2).expiry) →
      (d.last = true ↔ Uses g .Last) → Question H q t g .Duplicate (.duplicate d)
  | lists {w a ks vals c} : w ∈ [Word.Header, .Address, .Envelope, .String] → Uses g .List → g.pos = [a, .vals ks] →
      vals ≠ [] → vals.Nodup → (∀ v, v ∈ vals ↔ Value H q t g w v ∧ v ≠ []) → Written.ComparatorIs g c →
      Question H q t g w (.lists (ks.map (said H q)) vals c)

/-- Tests that the host answers. -/
def Asks (w : Word) (g : Got F) : Prop :=
  w ∈ [Word.MailboxExists, .MailboxIdExists, .SpecialUseExists, .Duplicate] ∨ w ∈ [Word.Header, .Address, .Envelope, .String] ∧ Uses g .List

/-! ## Other tests -/

/-- The test is true, with the variables, flags and message `q`, of a message with the parts `t`; `allowed` are the extensions. -/
def IsTrue [DecidableEq N] (H : Host W F N) (allowed : Vm.Cap → Bool) (q : Store F × (Text × W)) (t : Mime.Tree) : Word → Got F → Prop
  | .Body, g => ∃ ks, g.pos = [.vals ks] ∧
      ((∃ s, Written.SubjectIs (H.flags.other q.2.2) g s ∧
        ∃ k ∈ ks, Written.Meets (FlagLang.see H.flags q).x g (.text s) (.val ((FlagLang.see H.flags q).eval k))) ∨
      ∃ tr m p s, Written.Asked (FlagLang.see H.flags q) g tr ∧ Body.Inside (H.flags.other q.2.2).msg t.id m p ∧
        Body.Selected (FlagLang.see H.flags q).x p tr ∧ Body.Reads (FlagLang.see H.flags q).x (H.flags.other q.2.2).lib m.raw tr p s ∧
        ∃ k ∈ ks, Written.Meets (FlagLang.see H.flags q).x g (.text s) (.val ((FlagLang.see H.flags q).eval k)))
  | .Environment, g => ∃ n k v, g.pos = [.text n, .vals [k]] ∧ H.items q.2.2 (lower n) = some v ∧ v ≠ .str [] ∧
      Written.Meets (FlagLang.see H.flags q).x g (.val v) (.val ((FlagLang.see H.flags q).eval k))
  | .Ihave, g => ∃ ns, g.pos = [.texts ns] ∧
      ∀ c ∈ H.flags.vars.core.caps ns, allowed c = true ∧ c ≠ .known "variables" ∧ c ≠ .known "encoded-character"
  | .MetadataExists, g => ∃ mb vs, g.pos = [.val mb, .vals vs] ∧
      ∀ v ∈ vs, ∃ s, Tests.Stored (FlagLang.see H.flags q).x (H.flags.other q.2.2).stored (.mailbox (said H q mb) (said H q v)) s
  | .ServerMetadataExists, g => ∃ vs, g.pos = [.vals vs] ∧
      ∀ v ∈ vs, ∃ s, Tests.Stored (FlagLang.see H.flags q).x (H.flags.other q.2.2).stored (.server (said H q v)) s
  | .ValidNotifyMethod, g => ∃ vs, g.pos = [.vals vs] ∧
      ∀ v ∈ vs, Tests.Supports (H.flags.other q.2.2).mailto (H.flags.other q.2.2).notifyUris ((FlagLang.see H.flags q).x.utf8 (said H q v))
  | .ValidExtList, g => ∃ vs, g.pos = [.vals vs] ∧ ∀ v ∈ vs, said H q v ∈ H.lists q.2.2
  | w, g => FlagLang.IsTrue H.flags q t w g

/-- The content types that `body` asks for are such: what else they may be is left open (C66). -/
def Proper (H : Host W F N) (q : Store F × (Text × W)) (w : Word) (g : Got F) : Prop :=
  w = .Body → ∀ tr, Written.Asked (FlagLang.see H.flags q) g tr → tr.Proper (FlagLang.see H.flags q).x

/-- Tests of the language.  Of the keys of `environment` all but the last are without effect (C118), and tests for annotations name one. -/
def Test : Script.Node F → Prop
  | .test .Body g => Written.Comparing g
  | .test .Environment g => Written.Comparing g ∧ ∃ n k, g.pos = [.text n, .vals [k]]
  | .test .MetadataExists g => ∀ vs, .vals vs ∈ g.pos → vs ≠ []
  | .test .ServerMetadataExists g => ∀ vs, .vals vs ∈ g.pos → vs ≠ []
  | .test w g => w ∈ [Word.Ihave, .ValidNotifyMethod, .ValidExtList] ∨ Asks w g ∨ ¬ Uses g .List ∧ FlagLang.Test (.test w g)
  | _ => False

/-- The same, with strings that are accepted. -/
def AskTest (H : Host W F N) (n : Script.Node F) : Prop := Accepts (FlagLang.withFlags H.flags) (Core.got n) ∧ Test n

/-- A single test.  The host gives the answers `ans 0`, `ans 1`, … to the first, second, … question of the script. -/
inductive Says [DecidableEq N] (H : Host W F N) (allowed : Vm.Cap → Bool) (ans : Nat → Bool) (w : W) (t : Mime.Tree) :
    Script.Node F → FlagLang.St F → Bool → FlagLang.St F → Prop where
  | knows {c g s b} : ¬ Asks c g →
      (Proper H (s.vars, (s.flags, w)) c g → (b = true ↔ IsTrue H allowed (s.vars, (s.flags, w)) t c g)) → Says H allowed ans w t (.test c g) s b s
  | asks {c g s p} : Asks c g → Question H (s.vars, (s.flags, w)) t g c p →
      Says H allowed ans w t (.test c g) s (ans (Base.asked s.core.acts)) { s with core := { s.core with acts := s.core.acts ++ [.ask p] } }
  | nothing {c g s} : Asks c g → (∀ p, ¬ Question H (s.vars, (s.flags, w)) t g c p) → Says H allowed ans w t (.test c g) s false s

/-- Scripts of the language. -/
abbrev Asking (H : Host W F N) (cfg : Vm.Cfg (Text × W) V Core.Place) (b : Whole.Prog F) : Prop :=
  Lang.BlkIn (AskTest H) (FlagLang.FlagCmd H.flags cfg) b

/-- What a script does. -/
abbrev Runs [DecidableEq N] (H : Host W F N) (cfg : Vm.Cfg (Text × W) V Core.Place) (ans : Nat → Bool) (w : W) (t : Mime.Tree)
    (b : Whole.Prog F) (s s' : FlagLang.St F) (f : Bool) : Prop :=
  Lang.RunBlk (Says H cfg.allowed ans w t) (FlagLang.Does H.flags cfg w) b s s' f

end Sieve.AskLang
