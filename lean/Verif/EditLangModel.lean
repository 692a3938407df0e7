import Verif.MailLangModel

/-!
# The language with header fields that change

The language of `MailLangModel` with `addheader` and `deleteheader`: the instructions that they become, as the interpreter (`VmModel`)
executes them.

What is simplified.

* What becomes of the message when its header fields change is a function of the host (`put`); of it the tests read the header fields, and
  everything else that they read of the message.
* `addheader` panics if there is no current part, and the loop of `deleteheader` has a number of steps (`MimeModel`); both do not happen for
  messages that have their parts (`EditLangProps`), and the instruction does nothing then.
* Everything that `MailLangModel` simplifies.
-/

namespace Sieve.EditLang

open Sieve.Args Sieve.Fields Sieve.Vars
open Sieve.FlagLang (Text)

/-- What the commands and tests read.  For `Host.addheader`, `context.rs:303`. -/
structure Host (W F N : Type) where
  mail : MailLang.Host W F N
  editing : Written.Editing N
  /-- the message with other header fields -/
  put : W → List (Mime.Part N Tests.Field) → W

variable {W F N : Type} [DecidableEq F]

/-- `AddHeader::exec`, `src/runtime/actions/action_editheader.rs:22-37`: whether `has_changes` is set. -/
def adds (env : Written.Env F N) (o : Written.Editing N) (i : Fields.AddHeader F) : Bool :=
  let clean := (Written.value env i.name).filter fun c => o.alnum c || c == '-'
  !clean.isEmpty &&
    match env.headerName clean with
    | some n => !o.prot n
    | none => false

/-- `DeleteHeader::exec`, `src/runtime/actions/action_editheader.rs:53-122`: whether `has_changes` is set. -/
def finds [DecidableEq N] (env : Written.Env F N) (o : Written.Editing N) (fuel : Nat) (i : Fields.DeleteHeader F) : Bool :=
  match env.headerName (Written.value env i.name) with
  | none => false
  | some name =>
    if o.prot name then false
    else
      match Mime.findHeaders env.parts env.part [name] i.index i.anyChild fuel with
      | some found => !(found.filter fun h => Written.deletes env i h.1).isEmpty
      | none => false

/-- The message and `has_changes` after the action.  For `Host.addheader`, `context.rs:303`. -/
def Host.change (H : Host W F N) (q : Text × W) (changes : Bool) (parts : Option (List (Mime.Part N Tests.Field))) : (Text × W) × Bool :=
  if changes then
    match parts with
    | some ps => ((q.1, H.put q.2 ps), true)
    | none => (q, false)
  else (q, false)

/-- `Instruction::AddHeader`, `context.rs:303`. -/
def Host.addheader (H : Host W F N) (g : Got F) : Vm.Instr (Text × W) (Expr.Val F) Core.Place :=
  match Fields.AddHeader.of g with
  | some i => .edit fun v =>
      let q := H.mail.asks.flags.up.see v
      H.change q.2 (adds (H.mail.env q) H.editing i) (Written.addheader (H.mail.env q) H.editing i)
  | none => .invalid .nowhere

/-- `Instruction::DeleteHeader`, `context.rs:304`. -/
def Host.deleteheader [DecidableEq N] (H : Host W F N) (g : Got F) : Vm.Instr (Text × W) (Expr.Val F) Core.Place :=
  match Fields.DeleteHeader.of g with
  | some i => .edit fun v =>
      let q := H.mail.asks.flags.up.see v
      let fuel := H.mail.asks.flags.vars.core.fuel q.2.2
      H.change q.2 (finds (H.mail.env q) H.editing fuel i) (Written.deleteheader (H.mail.env q) H.editing fuel i)
  | none => .invalid .nowhere

/-- The instruction of a command.  See `runtime/context.rs:124-441`. -/
def Host.act [DecidableEq N] (H : Host W F N) (maxOut maxReceived : Nat) (n : Script.Node F) : Vm.Instr (Text × W) (Expr.Val F) Core.Place :=
  match n with
  | .cmd .AddHeader g => if H.mail.asks.flags.up.accepts g then H.addheader g else .invalid .nowhere
  | .cmd .DeleteHeader g => if H.mail.asks.flags.up.accepts g then H.deleteheader g else .invalid .nowhere
  | n => H.mail.act maxOut maxReceived n

theorem act_plain [DecidableEq N] (H : Host W F N) (maxOut maxReceived : Nat) (n : Script.Node F) : Source.Plain (H.act maxOut maxReceived n) := by
  unfold Host.act
  split
  · split
    · unfold Host.addheader
      split <;> trivial
    · trivial
  · split
    · unfold Host.deleteheader
      split <;> trivial
    · trivial
  · exact MailLang.act_plain _ _ _ _

/-- The language for the interpreter.  See `runtime/context.rs:124-441`. -/
def Host.interp [DecidableEq N] (H : Host W F N) (cfg : Vm.Cfg (Text × W) (Expr.Val F) Core.Place) (notV : Expr.Val F → Expr.Val F)
    (not_spec : ∀ v, cfg.toBool (notV v) = !cfg.toBool v) : Source.Interp cfg (Script.Node F) (Script.Node F) (List UInt8) where
  act := H.act cfg.maxOut cfg.maxReceived
  plain := act_plain H cfg.maxOut cfg.maxReceived
  test := (H.mail.interp cfg notV not_spec).test
  expr := fun _ v => .call .nowhere v.world
  bad := fun _ => .nowhere
  notV := notV
  not_spec := not_spec

end Sieve.EditLang
