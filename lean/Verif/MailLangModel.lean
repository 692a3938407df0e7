import Verif.AskLangModel

/-!
# The language with messages of its own

The language of `AskLangModel` with `notify` and `vacation`: the instructions that they become, as the interpreter (`VmModel`) executes
them.

What is simplified.

* The message is given several times: as the tests see it, and by its header fields and its envelope as these two commands read them.
* All messages that a script makes have the same date and the same message id; in the code they are new for each.
* Everything that `AskLangModel` simplifies.
-/

namespace Sieve.MailLang

open Sieve.Args Sieve.Fields Sieve.Vars
open Sieve.FlagLang (Text)

/-- What the commands and tests read.  For `Host.copy`, `src/runtime/actions/action_notify.rs:268-283`. -/
structure Host (W F N : Type) where
  asks : AskLang.Host W F N
  /-- UTF-8, and what `parse_mailto` needs -/
  letters : Notify.Ext
  /-- `message.parts[0].headers` -/
  headers : W → List (Vacation.Hd × Tests.Field)
  /-- `message.subject()` -/
  subject : W → Option Text
  /-- `user_from_field()` -/
  userFrom : W → Text
  /-- `ctx.envelope` -/
  envelope : W → List (Vacation.Env × Expr.Val F)
  /-- `vacation_use_orig_rcpt` -/
  useOrig : Bool
  /-- `default_vacation_expiry` -/
  expiry : Nat
  /-- `vacation_subject_prefix` -/
  «prefix» : Text
  /-- `vacation_default_subject` -/
  defaultSubject : Text
  /-- `Address::contains` -/
  names : Text → Tests.Parsed → Bool
  /-- a header field as it is in the message -/
  raw : W → Tests.Field → Option Text
  /-- the date and the message id of messages that are made -/
  date : W → Text
  id : W → Text

variable {W F N : Type} [DecidableEq F]

/-- What tests and arguments read.  For `Host.copy`, `src/runtime/actions/action_notify.rs:268-283`. -/
def Host.env (H : Host W F N) (q : Store F × (Text × W)) : Written.Env F N := H.asks.flags.env q

/-- The folder of a copy.  For `Host.copy`, `src/runtime/actions/action_notify.rs:268-283`. -/
def folder (f : Notify.Fcc) : Core.Place × List String := (.folder f.mailbox f.mailboxId f.specialUse f.create, f.flags.map String.ofList)

/-- The instruction of a copy, `src/runtime/actions/action_notify.rs:268-283`, `src/runtime/actions/action_vacation.rs:318-333`. -/
def Host.copy (H : Host W F N) (c : Option (Fields.Fcc F)) : Option (Vm.View (Text × W) (Expr.Val F) → Core.Place × List String) :=
  c.map fun c v => folder (Written.copyOf (H.env (H.asks.flags.up.see v)) c)

/-! ## Notifications -/

/-- What `notify` reads; `out` is `num_out_messages`, `last` is `last_message_id`.
For `Host.notify`, `compiler/grammar/actions/action_notify.rs:50-172`. -/
def Host.notifyCtx (H : Host W F N) (maxOut : Nat) (w : W) (out last : Nat) : Notify.Ctx where
  headers := H.headers w
  subject := H.subject w
  user := H.asks.flags.vars.core.user w
  userFrom := H.userFrom w
  numOut := out
  maxOut := maxOut
  lastId := last

/-- The arguments, evaluated.  For `Host.notify`, `compiler/grammar/actions/action_notify.rs:50-172`. -/
def Host.notifyArgs (H : Host W F N) (q : Store F × (Text × W)) (i : Fields.Notify F) : Notify.Args :=
  ⟨Written.value (H.env q) i.method, i.sender.map (Written.value (H.env q)), i.importance.map (Written.value (H.env q)),
    i.options.map (Written.value (H.env q)), i.message.map (Written.value (H.env q)), i.fcc.map (Written.copyOf (H.env q))⟩

/-- `Notify::exec`, `src/runtime/actions/action_notify.rs:20-265`, up to the choice that the interpreter makes by the number of messages. -/
def request (x : Notify.Ext) (c : Notify.Ctx) (a : Notify.Args) (date id : Text) : Option (Vm.NotifyReq Core.Place) :=
  if c.headers.any Notify.automatic then none
  else
    match Notify.parseUri a.method with
    | none => none
    | some (scheme, rest) => some {
        method :=
          if Vacation.same scheme "mailto".toList then
            .mailto ((Notify.mailOf x rest).map fun m => (.group ((m.to_ ++ m.cc ++ m.bcc).map Notify.bare), .message (Notify.render c a m date id)))
          else .other
        plain := .message (Notify.render c a Notify.noMail date id)
        event := .notice a.method a.from (Notify.importance a) a.options (Notify.text c a) }

/-- `parse_notify`, `compiler/grammar/actions/action_notify.rs:50-172`, and `Notify::exec`, `src/runtime/actions/action_notify.rs:20-287` (runtime). -/
def Host.notify (H : Host W F N) (maxOut : Nat) (g : Got F) : Vm.Instr (Text × W) (Expr.Val F) Core.Place :=
  match Fields.Notify.of g with
  | some i => .notify
      (fun v => let q := H.asks.flags.up.see v
        request H.letters (H.notifyCtx maxOut q.2.2 v.numOut 0) (H.notifyArgs q i) (H.date q.2.2) (H.id q.2.2))
      (H.copy i.fcc)
  | none => .invalid .nowhere

/-! ## Vacation replies -/

/-- What `vacation` reads; `out` is `num_out_messages`.  For `Host.vacation`, `src/runtime/actions/action_vacation.rs:163-336`. -/
def Host.vacationCtx (H : Host W F N) (maxOut maxReceived : Nat) (w : W) (out : Nat) : Vacation.Ctx F where
  envelope := H.envelope w
  user := H.asks.flags.vars.core.user w
  userFrom := H.userFrom w
  headers := H.headers w
  numOut := out
  maxOut := maxOut
  useOrig := H.useOrig
  maxReceived := maxReceived
  expiry := H.expiry
  «prefix» := H.prefix
  defaultSubject := H.defaultSubject

/-- Where a reply goes, `src/runtime/actions/action_vacation.rs:310-316`. -/
def replyTo (a : Text) : Core.Place := .address (.address a) .never .default .none

/-- `Vacation::exec`, `src/runtime/actions/action_vacation.rs:163-336`. -/
def Host.vacation (H : Host W F N) (maxOut maxReceived : Nat) (g : Got F) : Vm.Instr (Text × W) (Expr.Val F) Core.Place :=
  match Fields.Vacation.of g with
  | some i => .vacation
      (fun v => let q := H.asks.flags.up.see v
        let r := (Written.vacation (H.env q) H.names (H.raw q.2.2) (H.date q.2.2) (H.id q.2.2) (H.vacationCtx maxOut maxReceived q.2.2 v.numOut) i).1
        (.message r.1, replyTo r.2))
      (H.copy i.fcc)
  | none => .invalid .nowhere

/-- `TestVacation::exec`, `src/runtime/actions/action_vacation.rs:27-159`; the event with its `is_not`, or `TestResult::Bool(false)`. -/
def Host.mayReply (H : Host W F N) (maxOut maxReceived : Nat) (g : Got F) (v : Vm.View (Text × W) (Expr.Val F)) :
    Vm.TestRes Core.Place :=
  let q := H.asks.flags.up.see v
  match Fields.Vacation.of g with
  | some i =>
    match Written.vacationTest (H.env q) (H.vacationCtx maxOut maxReceived q.2.2 v.numOut) i with
    | some (p, isNot) => .event (.duplicate ⟨p.id, p.expiry, p.last⟩) isNot
    | none => .bool false
  | none => .error .nowhere

/-! ## The language -/

/-- The instruction of a command.  See `runtime/context.rs:124-441`. -/
def Host.act (H : Host W F N) (maxOut maxReceived : Nat) (n : Script.Node F) : Vm.Instr (Text × W) (Expr.Val F) Core.Place :=
  match n with
  | .cmd .Notify g => if H.asks.flags.up.accepts g then H.notify maxOut g else .invalid .nowhere
  | .cmd .Vacation g => if H.asks.flags.up.accepts g then H.vacation maxOut maxReceived g else .invalid .nowhere
  | n => H.asks.flags.act n

theorem act_plain (H : Host W F N) (maxOut maxReceived : Nat) (n : Script.Node F) : Source.Plain (H.act maxOut maxReceived n) := by
  unfold Host.act
  split
  · split
    · unfold Host.notify
      split <;> trivial
    · trivial
  · split
    · unfold Host.vacation
      split <;> trivial
    · trivial
  · exact FlagLang.act_plain _ _

/-- The language for the interpreter.  See `runtime/context.rs:124-441`. -/
def Host.interp [DecidableEq N] (H : Host W F N) (cfg : Vm.Cfg (Text × W) (Expr.Val F) Core.Place) (notV : Expr.Val F → Expr.Val F)
    (not_spec : ∀ v, cfg.toBool (notV v) = !cfg.toBool v) : Source.Interp cfg (Script.Node F) (Script.Node F) (List UInt8) where
  act := H.act cfg.maxOut cfg.maxReceived
  plain := act_plain H cfg.maxOut cfg.maxReceived
  test := fun n v =>
    match n with
    | .cmd .Vacation g =>
      ⟨if H.asks.flags.up.accepts g then H.mayReply cfg.maxOut cfg.maxReceived g v else .error .nowhere, v.matchv, v.world, false⟩
    | n => (H.asks.interp cfg notV not_spec).test n v
  expr := fun _ v => .call .nowhere v.world
  bad := fun _ => .nowhere
  notV := notV
  not_spec := not_spec

end Sieve.MailLang
