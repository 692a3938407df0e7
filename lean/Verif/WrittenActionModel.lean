import Verif.WrittenModel
import Verif.NotifyModel
import Verif.BuildModel
import Verif.HeaderProps
import Verif.FlagsDeliver

/-!
# Actions as they are written

Model of how the instructions of the actions `addheader`, `deleteheader`, `vacation`, `notify`, `replace` and `enclose`
(`FieldsModel`) are executed by the runtime (`MimeModel`, `VacationModel`, `NotifyModel`, `BuildModel`): which of their fields
become which arguments, how they are evaluated, and which values `deleteheader` compares.

What is simplified.

* `ctx.eval_value`, `HeaderName::parse` and UTF-8 (`encode`) are parameters.
* The message is given twice: its header fields as the tests see them (`Env.parts`, `Vacation.Ctx.headers`), and its bytes
  (`Build.Ctx`).
-/

namespace Sieve.Written

open Sieve.Args

variable {F N : Type}

/-- `ctx.eval_value(v).to_string()`.  For `addheader`, `src/runtime/actions/action_editheader.rs:22-50`. -/
def value (env : Env F N) (v : Val F) : Tests.Str := Tests.text env.x.flt (env.eval v)

/-! ## Header fields -/

/-- What the actions on header fields read of the configuration.
For `addheader`, `src/runtime/actions/action_editheader.rs:22-50`. -/
structure Editing (N : Type) where
  /-- `runtime.protected_headers` -/
  prot : N → Bool
  /-- `char::is_alphanumeric` -/
  alnum : Char → Bool
  /-- `runtime.max_header_size` -/
  maxSize : Nat

/-- `AddHeader::exec`, `src/runtime/actions/action_editheader.rs:22-50`; the field that is inserted has no offsets
(`insert_header`, `158-173`). -/
def addheader (env : Env F N) (o : Editing N) (i : Fields.AddHeader F) : Option (List (Mime.Part N Tests.Field)) :=
  Mime.addHeader o.prot o.alnum env.headerName env.parts env.part (value env i.name)
    ⟨.text (Mime.removeCrlf o.maxSize (value env i.value)), true, []⟩ i.last

/-- `src/runtime/actions/action_editheader.rs:77-110`: whether a field is deleted.  Match variables are not set. -/
def deletes (env : Env F N) (i : Fields.DeleteHeader F) (h : Mime.Header N Tests.Field) : Bool :=
  if i.patterns.isEmpty then true
  else
    (Tests.headerValues env.x (env.plain h.name) .none h.value).any fun v =>
      i.patterns.any fun p =>
        match i.matchType with
        | .is => (comparatorOf i.comparator).is env.x (.text v) (.val (env.eval p))
        | .contains => (comparatorOf i.comparator).contains env.x v (value env p)
        | .value r => (comparatorOf i.comparator).relational env.x (relOf r) (.text v) (.val (env.eval p))
        | .glob => ((comparatorOf i.comparator).glob env.x [] v (value env p) 0).2
        | .regex => (Tests.regexMatch env.x [] v (value env p) 0).2
        | .count _ => false
        | .list => false

/-- `DeleteHeader::exec`, `src/runtime/actions/action_editheader.rs:53-136`. -/
def deleteheader [DecidableEq N] (env : Env F N) (o : Editing N) (fuel : Nat) (i : Fields.DeleteHeader F) :
    Option (List (Mime.Part N Tests.Field)) :=
  match env.headerName (value env i.name) with
  | none => some env.parts
  | some name => Mime.deleteHeader o.prot env.parts env.part name i.index i.anyChild (deletes env i) fuel

/-! ## Messages that are sent -/

/-- `src/runtime/actions/action_vacation.rs:322-337` and `src/runtime/actions/action_notify.rs:268-283` (runtime): the copy to be filed. -/
def copyOf (env : Env F N) (c : Fields.Fcc F) : Notify.Fcc :=
  { mailbox := value env c.mailbox, flags := Flags.tokens env.x.ws (c.flags.map (value env)),
    mailboxId := c.mailboxId.map (value env), specialUse := c.specialUse.map (value env), create := c.create }

/-- `Period`.  For `vacationTest`, `src/runtime/actions/action_vacation.rs:27-159`. -/
def periodOf : Fields.Period → Vacation.Period
  | .days n => .days n
  | .seconds n => .seconds n
  | .default => .default

/-- `TestVacation::exec`, `src/runtime/actions/action_vacation.rs:27-159` (runtime). -/
def vacationTest (env : Env F N) (c : Vacation.Ctx F) (i : Fields.Vacation F) : Option (Vacation.Query × Bool) :=
  Vacation.test env.x c ⟨i.addresses.map (value env), i.handle.map (value env), value env i.testReason, periodOf i.period⟩

/-- `Vacation::exec`, `src/runtime/actions/action_vacation.rs:163-336` (runtime): the message, its recipient and the copy. -/
def vacation (env : Env F N) (names : Tests.Str → Tests.Parsed → Bool) (raw : Tests.Field → Option Tests.Str)
    (date msgId : Tests.Str) (c : Vacation.Ctx F) (i : Fields.Vacation F) : (Tests.Str × Tests.Str) × Option Notify.Fcc :=
  (Vacation.reply env.x names raw date msgId c
    ⟨i.subject.map (value env), i.sender.map (value env), value env i.reason, i.mime⟩, i.fcc.map (copyOf env))

/-- `Notify::exec`, `src/runtime/actions/action_notify.rs:20-287` (runtime). -/
def notify (env : Env F N) (y : Notify.Ext) (c : Notify.Ctx) (date msgId : Tests.Str) (i : Fields.Notify F) : Notify.Result :=
  Notify.exec y c ⟨value env i.method, i.sender.map (value env), i.importance.map (value env), i.options.map (value env),
    i.message.map (value env), i.fcc.map (copyOf env)⟩ date msgId

/-! ## The message that is replaced -/

/-- What `replace` and `enclose` read besides: UTF-8, `user_from_field()`, the date, the new message id, the new boundary, and
`message.subject()`.  For `replace`, `src/runtime/actions/action_mime.rs:26-159`. -/
structure Making where
  encode : Tests.Str → Build.Bytes
  user : Build.Bytes
  now : Build.Bytes
  id : Build.Bytes
  bnd : Build.Bytes
  subject : Option Build.Bytes

/-- `Replace::exec`, `src/runtime/actions/action_mime.rs:26-159`. -/
def replace [DecidableEq N] (env : Env F N) (m : Making) (x : Build.Names N) (c : Build.Ctx N) (fuel : Nat)
    (i : Fields.Replace F) : Option (Build.Ctx N) :=
  Build.replace x c env.part ⟨m.encode (value env i.replacement), i.mime, i.subject.map fun v => m.encode (value env v),
    i.sender.map fun v => m.encode (value env v), m.user, m.now, m.id⟩ fuel

/-- `str::split_once(':')`.  For `fieldGiven`, `src/runtime/actions/action_mime.rs:246-251`. -/
def splitColon : Tests.Str → Option (Tests.Str × Tests.Str)
  | [] => none
  | c :: cs => if c = ':' then some ([], cs) else (splitColon cs).map fun p => (c :: p.1, p.2)

/-- `src/runtime/actions/action_mime.rs:246-251`: name and value of a header field given to `enclose`. -/
def fieldGiven (env : Env F N) (m : Making) (v : Val F) : Option (Build.Bytes × Build.Bytes) :=
  (splitColon (value env v)).map fun p => (m.encode (Vacation.trim env.x p.1), m.encode (Vacation.trim env.x p.2))

/-- `Enclose::exec`, `src/runtime/actions/action_mime.rs:168-323`. -/
def enclose [DecidableEq N] (env : Env F N) (m : Making) (x : Build.Names N) (c : Build.Ctx N) (i : Fields.Enclose F) :
    Build.Ctx N :=
  Build.enclose x c ⟨m.encode (value env i.value), i.subject.map fun v => m.encode (value env v), m.subject, m.bnd,
    i.headers.filterMap (fieldGiven env m), m.user, m.now, m.id⟩

end Sieve.Written
