import Verif.MailLangModel
import Verif.AskLangSpec

/-!
# What a script with messages of its own says

RFC 5435 and 5436 (`notify`), 5230 and 6131 (`vacation`), 8580 (`:fcc`) on top of `AskLangSpec`.  What a notification does is said by
`Notify.Does` (C90), when a vacation reply may be sent by `Vacation.MayReply` (C40), of the arguments that are written in the script.
-/

namespace Sieve.MailLang

open Sieve.Args Sieve.Fields Sieve.Vars
open Sieve.FlagLang (Text)

variable {W V F N : Type} [DecidableEq F]

/-- What arguments see. -/
def look (H : Host W F N) (w : W) (s : FlagLang.St F) : Written.Env F N := FlagLang.see H.asks.flags (s.vars, (s.flags, w))

/-! ## Notifications -/

/-- What notifications depend on: the messages made and sent so far are those of the script. -/
def notifies (H : Host W F N) (maxOut : Nat) (w : W) (s : FlagLang.St F) : Notify.Ctx :=
  ⟨H.headers w, H.subject w, H.asks.flags.vars.core.user w, H.userFrom w, Core.outgoing s.core.acts, maxOut, Base.made s.core.acts⟩

/-- Where a copy is filed, and its flags. -/
def filed (f : Notify.Fcc) : Core.Place × List String := (.folder f.mailbox f.mailboxId f.specialUse f.create, f.flags.map String.ofList)

/-- The action that stands for what a notification does. -/
inductive Takes : List Notify.Ev → List (Base.Action Core.Place) → Prop where
  | nothing : Takes [] []
  | mail {id m rs} : Takes [.created id m, .send rs id] [.mail .notify id (.message m) (.group rs) none]
  | mailCopy {id m rs f} : Takes [.created id m, .send rs id, .fileInto f id] [.mail .notify id (.message m) (.group rs) (some (filed f))]
  | host {me fr im op tx} : Takes [.notify me fr im op tx] [.notify (.notice me fr im op tx) none]
  | hostCopy {id m me fr im op tx f} : Takes [.created id m, .notify me fr im op tx, .fileInto f id]
      [.notify (.notice me fr im op tx) (some (id, .message m, filed f))]

/-! ## Vacation replies -/

/-- What vacation replies depend on. -/
def replies (H : Host W F N) (cfg : Vm.Cfg (Text × W) V Core.Place) (w : W) (s : FlagLang.St F) : Vacation.Ctx F where
  envelope := H.envelope w
  user := H.asks.flags.vars.core.user w
  userFrom := H.userFrom w
  headers := H.headers w
  numOut := Core.outgoing s.core.acts
  maxOut := cfg.maxOut
  useOrig := H.useOrig
  maxReceived := cfg.maxReceived
  expiry := H.expiry
  «prefix» := H.prefix
  defaultSubject := H.defaultSubject

/-- All texts of the header of a reply are on one line. -/
structure OnLines (env : Written.Env F N) (c : Vacation.Ctx F) (raw : Tests.Field → Option Text) (date id : Text) (m : Vacation.Reply) : Prop where
  date : Vacation.OneLine date
  id : Vacation.OneLine id
  «prefix» : Vacation.OneLine c.prefix
  default : Vacation.OneLine c.defaultSubject
  user : Vacation.OneLine c.userFrom
  envelope : ∀ e ∈ c.envelope, Vacation.OneLine (Tests.text env.x.flt e.2)
  subject : ∀ t, m.subject = some t → Vacation.OneLine t
  sender : ∀ t, m.from = some t → Vacation.OneLine t
  headers : ∀ h ∈ c.headers, ∀ t, h.2.parsed = .text t → Vacation.OneLine t
  raw : ∀ h ∈ c.headers, ∀ t, raw h.2 = some t → Vacation.RawField t

/-- The reply is `text`, and it goes to `rcpt`.  If the envelope has two senders, if a text has line breaks and with `:mime` it is left
open what the reply is (C41). -/
structure ReplyIs (env : Written.Env F N) (c : Vacation.Ctx F) (raw : Tests.Field → Option Text) (date id : Text) (g : Got F) (v : Val F)
    (text rcpt : Text) : Prop where
  to_ : ∀ a, Vacation.Sender env.x c a → (∀ e ∈ c.envelope, e.1 = .from → Tests.isEmpty e.2 = false → Tests.text env.x.flt e.2 = a) → rcpt = a
  contents : ∃ m, Written.ReplySaid env g v m ∧ (¬ Uses g .Mime → OnLines env c raw date id m →
    ∃ fields, Vacation.readMessage [] text = (fields, m.reason) ∧ "Auto-Submitted: auto-replied".toList ∈ fields ∧
      (∀ t, m.from = some t → "From: ".toList ++ t ∈ fields) ∧ (∀ t, m.subject = some t → t ≠ [] → "Subject: ".toList ++ t ∈ fields))

/-! ## The language -/

/-- One more action. -/
def andDoes (s : FlagLang.St F) (l : List (Base.Action Core.Place)) : FlagLang.St F := { s with core := { s.core with acts := s.core.acts ++ l } }

/-- One command; the flag says whether the script ends. -/
inductive Does (H : Host W F N) (cfg : Vm.Cfg (Text × W) V Core.Place) (w : W) : Script.Node F → FlagLang.St F → FlagLang.St F → Bool → Prop where
  | flags {n s s' b} : FlagLang.Does H.asks.flags cfg w n s s' b → Does H cfg w n s s' b
  | notify {g s v a res l} : g.pos = [.val v] → Written.NotifySaid (look H w s) g v a →
      Notify.Does H.letters (notifies H cfg.maxOut w s) a (H.date w) (H.id w) res → Takes res.events l →
      Does H cfg w (.cmd .Notify g) s (andDoes s l) false
  | vacation {g s v text rcpt copy} : g.pos = [.val v] → ReplyIs (look H w s) (replies H cfg w s) (H.raw w) (H.date w) (H.id w) g v text rcpt →
      Written.CopySaid (look H w s) g copy →
      Does H cfg w (.cmd .Vacation g) s (andDoes s [.mail .vacation (Base.made s.core.acts + 1) (.message text)
        (.address (.address rcpt) .never .default .none) (copy.map filed)]) false

/-- A single test; `vacation` asks the host whether it has replied to the sender before if the message may be replied to, and the reply is
sent if not. -/
inductive Says [DecidableEq N] (H : Host W F N) (cfg : Vm.Cfg (Text × W) V Core.Place) (ans : Nat → Bool) (w : W) (t : Mime.Tree) :
    Script.Node F → FlagLang.St F → Bool → FlagLang.St F → Prop where
  | test {n s b s'} : AskLang.Says H.asks cfg.allowed ans w t n s b s' → Says H cfg ans w t n s b s'
  | may {g s v a to_} : g.pos = [.val v] → Written.VacationSaid (look H w s) g v a → Vacation.MayReply (look H w s).x (replies H cfg w s) a to_ →
      Says H cfg ans w t (.cmd .Vacation g) s (!ans (Base.asked s.core.acts))
        (andDoes s [.ask (.duplicate ⟨(Vacation.question (replies H cfg w s) a to_).id, (Vacation.question (replies H cfg w s) a to_).expiry, false⟩)])
  | mayNot {g s v a} : g.pos = [.val v] → Written.VacationSaid (look H w s) g v a →
      (∀ to_, ¬ Vacation.MayReply (look H w s).x (replies H cfg w s) a to_) → Says H cfg ans w t (.cmd .Vacation g) s false s

/-- Tests of the language. -/
def MailTest (H : Host W F N) (n : Script.Node F) : Prop :=
  AskLang.AskTest H.asks n ∨ Accepts (FlagLang.withFlags H.asks.flags) (Core.got n) ∧ ∃ g, n = .cmd .Vacation g

/-- Commands of the language, whose extensions are allowed. -/
def MailCmd (H : Host W F N) (cfg : Vm.Cfg (Text × W) V Core.Place) (n : Script.Node F) : Prop :=
  FlagLang.FlagCmd H.asks.flags cfg n ∨
  Accepts (FlagLang.withFlags H.asks.flags) (Core.got n) ∧ ∃ g, n = .cmd .Notify g ∨ n = .cmd .Vacation g

/-- Scripts of the language. -/
abbrev Mailing (H : Host W F N) (cfg : Vm.Cfg (Text × W) V Core.Place) (b : Whole.Prog F) : Prop := Lang.BlkIn (MailTest H) (MailCmd H cfg) b

/-- What a script does. -/
abbrev Runs [DecidableEq N] (H : Host W F N) (cfg : Vm.Cfg (Text × W) V Core.Place) (ans : Nat → Bool) (w : W) (t : Mime.Tree)
    (b : Whole.Prog F) (s s' : FlagLang.St F) (f : Bool) : Prop :=
  Lang.RunBlk (Says H cfg ans w t) (Does H cfg w) b s s' f

end Sieve.MailLang
