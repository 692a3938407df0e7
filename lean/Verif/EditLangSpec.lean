import Verif.EditLangModel
import Verif.MailLangSpec
import Verif.WrittenActionProps

/-!
# What a script says that changes header fields

RFC 5293 on top of `MailLangSpec`: `addheader` and `deleteheader` change the message of the script.  All tests and commands after them see
the message as it is then, and so it is kept, filed and redirected: the host is given the new message before.
-/

namespace Sieve.EditLang

open Sieve.Args Sieve.Fields Sieve.Vars
open Sieve.FlagLang (Text)

variable {W V F N : Type} [DecidableEq F]

/-- The state of a script: that of `MailLang`, the message, and whether it is another than the host knows. -/
structure St (W F : Type) where
  mail : FlagLang.St F
  message : W
  edited : Bool

/-- What arguments see. -/
abbrev look (H : Host W F N) (s : St W F) : Written.Env F N := MailLang.look H.mail s.message s.mail

/-- The message `w'` is `w` with the header fields of `ps`. -/
structure Becomes (H : Host W F N) (w : W) (ps : List (Mime.Part N Tests.Field)) (w' : W) : Prop where
  put : w' = H.put w ps
  seen : H.mail.asks.flags.vars.core.env w' = { H.mail.asks.flags.vars.core.env w with parts := ps }

/-- Commands that need the message as it is now. -/
def Delivers (n : Script.Node F) : Prop := ∃ g, n = .cmd .Keep g ∨ n = .cmd .FileInto g ∨ n = .cmd .Redirect g

/-- The host is given the message as it is now, if it does not have it. -/
def written (cfg : Vm.Cfg (Text × W) V Core.Place) (s : St W F) : FlagLang.St F :=
  if s.edited then MailLang.andDoes s.mail [.version (Base.made s.mail.core.acts + 1) (cfg.render (s.mail.flags, s.message))] else s.mail

/-- A field that `deleteheader` takes out. -/
def Removes [DecidableEq N] (H : Host W F N) (t : Mime.Tree) (g : Got F) (nm : Val F) (ks : List (Val F)) (s : St W F) : Prop :=
  ∃ (id : Nat) (p : Mime.Part N Tests.Field) (pos : Nat), (look H s).parts[id]? = some p ∧
    Written.Deleted (look H s) H.editing g t nm ks id p.headers pos

open Classical in
/-- One command; the flag says whether the script ends. -/
inductive Does [DecidableEq N] (H : Host W F N) (cfg : Vm.Cfg (Text × W) V Core.Place) (t : Mime.Tree) :
    Script.Node F → St W F → St W F → Bool → Prop where
  | other {n s m b} : ¬ Delivers n → MailLang.Does H.mail cfg s.message n s.mail m b → Does H cfg t n s { s with mail := m } b
  /-- the message is kept, filed or redirected -/
  | delivers {n s m b} : Delivers n → MailLang.Does H.mail cfg s.message n (written cfg s) m b → m.core.acts ≠ (written cfg s).core.acts →
      Does H cfg t n s ⟨m, s.message, false⟩ b
  /-- it may not be redirected -/
  | stays {n s} : Delivers n → MailLang.Does H.mail cfg s.message n s.mail s.mail false → Does H cfg t n s s false
  | adds {g s nm v n ps w p hs txt tx} : g.pos = [.val nm, .val v] → Written.NewName (look H s) H.editing nm n →
      (look H s).parts[(look H s).part]? = some p → ps.length = (look H s).parts.length →
      (∀ id, id ≠ (look H s).part → ps[id]? = (look H s).parts[id]?) → ps[(look H s).part]? = some ⟨hs, p.body⟩ →
      Written.Placed g ⟨n, ⟨.text tx, true, []⟩⟩ p.headers hs → Written.TextOf (look H s) v txt →
      LongestPrefix H.editing.maxSize (txt.filter fun c => !(c == '\n' || c == '\r')) tx → Becomes H s.message ps w →
      Does H cfg t (.cmd .AddHeader g) s ⟨s.mail, w, true⟩ false
  | addsNot {g s nm v} : g.pos = [.val nm, .val v] → (∀ n, ¬ Written.NewName (look H s) H.editing nm n) →
      Does H cfg t (.cmd .AddHeader g) s s false
  | removes {g s nm ks ps w} : (g.pos = [.val nm] ∧ ks = [] ∨ g.pos = [.val nm, .vals ks]) → Removes H t g nm ks s →
      ps.length = (look H s).parts.length →
      (∀ (id : Nat) (p : Mime.Part N Tests.Field), (look H s).parts[id]? = some p →
        ps[id]? = some ⟨Mime.without (Written.Deleted (look H s) H.editing g t nm ks id p.headers) p.headers, p.body⟩) →
      Becomes H s.message ps w → Does H cfg t (.cmd .DeleteHeader g) s ⟨s.mail, w, true⟩ false
  | removesNot {g s nm ks} : (g.pos = [.val nm] ∧ ks = [] ∨ g.pos = [.val nm, .vals ks]) → ¬ Removes H t g nm ks s →
      Does H cfg t (.cmd .DeleteHeader g) s s false

/-- A single test, of the message as it is. -/
def Says [DecidableEq N] (H : Host W F N) (cfg : Vm.Cfg (Text × W) V Core.Place) (ans : Nat → Bool) (t : Mime.Tree) (n : Script.Node F)
    (s : St W F) (b : Bool) (s' : St W F) : Prop :=
  ∃ m, MailLang.Says H.mail cfg ans s.message t n s.mail b m ∧ s' = { s with mail := m }

/-- Commands of the language, whose extensions are allowed. -/
def EditCmd (H : Host W F N) (cfg : Vm.Cfg (Text × W) V Core.Place) (n : Script.Node F) : Prop :=
  MailLang.MailCmd H.mail cfg n ∨
  Accepts (FlagLang.withFlags H.mail.asks.flags) (Core.got n) ∧ ∃ g, n = .cmd .AddHeader g ∨ n = .cmd .DeleteHeader g

/-- Scripts of the language. -/
abbrev Editing (H : Host W F N) (cfg : Vm.Cfg (Text × W) V Core.Place) (b : Whole.Prog F) : Prop :=
  Lang.BlkIn (MailLang.MailTest H.mail) (EditCmd H cfg) b

/-- What a script does. -/
abbrev Runs [DecidableEq N] (H : Host W F N) (cfg : Vm.Cfg (Text × W) V Core.Place) (ans : Nat → Bool) (t : Mime.Tree)
    (b : Whole.Prog F) (s s' : St W F) (f : Bool) : Prop :=
  Lang.RunBlk (Says H cfg ans t) (Does H cfg t) b s s' f

/-- Before the script. -/
def start (H : Host W F N) (w : W) : St W F := ⟨FlagLang.start H.mail.asks.flags, w, false⟩

/-! ## Where the message goes -/

/-- The flags with which the message is kept. -/
def keptFlags (s : St W F) (fl : List String) : List String := if fl = [] then (Flags.flagsOf s.mail.flags).map String.ofList else fl

/-- What the host is told when the message is kept: by `keep`, the message as it was then, by the implicit keep, as it is at the end. -/
inductive KeptAs (cfg : Vm.Cfg (Text × W) V Core.Place) (s : St W F) : List (Vm.Event Core.Place) → Prop where
  | explicit {a b fl} : s.mail.core.acts = a ++ .keep fl :: b → (∀ f, .keep f ∉ b) → KeptAs cfg s [.keep (keptFlags s fl) (Base.current a)]
  | implicit : (∀ x ∈ s.mail.core.acts, ¬ Base.Cancels x) → s.edited = false →
      KeptAs cfg s [.keep (keptFlags s []) (Base.current s.mail.core.acts)]
  | changed : (∀ x ∈ s.mail.core.acts, ¬ Base.Cancels x) → s.edited = true →
      KeptAs cfg s [.created (Base.made s.mail.core.acts + 1) (cfg.render (s.mail.flags, s.message)),
        .keep (keptFlags s []) (Base.made s.mail.core.acts + 1)]

/-- The message is not changed after a `keep` without being filed or redirected afterwards; and if it is kept only by the implicit keep and
was changed, then it is also changed after it was last filed or redirected. -/
structure UpToDate (s : St W F) : Prop where
  explicit : ∀ fl, .keep fl ∈ s.mail.core.acts → s.edited = false
  implicit : (∀ x ∈ s.mail.core.acts, ¬ Base.Cancels x) → s.edited = true ∨ Base.current s.mail.core.acts = 0

/-- What the host is told at the end. -/
structure Finally (cfg : Vm.Cfg (Text × W) V Core.Place) (s : St W F) (l : List (Vm.Event Core.Place)) : Prop where
  keep : ∀ l', KeptAs cfg s l' → l = l'
  discard : Base.Discarded s.mail.core.acts → l = [.discard]
  other : (¬ ∃ fl, Base.Kept s.mail.core.acts fl) → ¬ Base.Discarded s.mail.core.acts → l = []

end Sieve.EditLang
