import Verif.BaseProps
import Verif.EventProps
import Verif.WrittenActionProps

/-!
# The commands and tests of the core language

The instructions that the commands `require`, `keep`, `discard`, `stop`, `fileinto`, `redirect`, `reject`, `ereject` and the tests `header`, `address`,
`envelope`, `exists`, `size` become (`ScriptModel`, `FieldsModel`), as the interpreter (`VmModel`) executes them: what `EventModel`,
`WrittenModel` and `OtherTestsModel` say of each.

What is simplified.

* Arguments are constants; a command or test with a variable in an argument is an error here.
* Nothing refers to match variables, so tests set none (`match_test_pos` is empty, see `MatchVarModel`).
* A `require` instruction lists all extensions that the command names, not only those that were not declared before (see `script_require`
  of C116).
* Every other command is an error here.
-/

namespace Sieve.Core

open Sieve.Args Sieve.Fields

/-- What the commands and tests read, in a state `W` of the message (and, in `VarsModel`, of the variables).
For `Host.test`, `src/runtime/tests/mod.rs:39-120`. -/
structure Host (W F N : Type) where
  /-- what tests see -/
  env : W → Written.Env F N
  /-- enough for all parts, see `MimeModel` -/
  fuel : W → Nat
  /-- `ctx.message_size` -/
  size : W → Nat
  /-- `ctx.user_address` -/
  user : W → Event.Text
  /-- the timestamp of a valid RFC 3339 date -/
  time : Event.Text → Option Int
  /-- `vars_global["__flags"]` -/
  flagText : W → Event.Text
  /-- number of `Received` headers of the message -/
  received : W → Nat
  /-- the extensions that names of `require` stand for -/
  caps : List (List UInt8) → List Vm.Cap

/-- Where the message goes: `Event::FileInto`, `Event::SendMessage` and `Event::Reject` without flags and message; and what the host is
asked: `Event::MailboxExists`, `Event::DuplicateId` and `Event::ListContains`; `Event::CreatedMessage`, `Recipient::Group` and
`Event::Notify`, `lib.rs:183-247`. -/
inductive Place where
  | folder (name : Event.Text) (mailboxId specialUse : Option Event.Text) (create : Bool)
  | address (recipient : Event.Recipient) (dsn : Dsn) (ret : Ret) (byTime : ByTime Int)
  | sender (extended : Bool) (reason : Event.Text)
  | mailboxes (l : List Event.Mailbox) (specialUse : List Event.Text)
  | duplicate (q : Tests.DupQuery)
  | lists (names values : List Event.Text) (c : Tests.Comparator)
  | message (text : Event.Text)
  | group (recipients : List Event.Text)
  | notice (method : Event.Text) (sender : Option Event.Text) (importance : Notify.Importance) (options : List Event.Text) (text : Event.Text)
  | nowhere
deriving DecidableEq

variable {W V F N S : Type}

/-- No argument has a variable.  See `compiler/grammar/mod.rs:365-381`. -/
def isConst : Arg F → Bool
  | .val (.var _) => false
  | .vals vs => vs.all fun | .var _ => false | _ => true
  | .pair a b => (match a with | .var _ => false | _ => true) && (match b with | .var _ => false | _ => true)
  | _ => true

/-- See `compiler/grammar/mod.rs:365-381`. -/
def constant (g : Got F) : Bool := g.pos.all isConst && g.tags.all fun p => isConst p.2

/-- What the actions read, see `EventModel`.  For `rejection`, `action_reject.rs:28-37`. -/
def Host.events (H : Host W F N) (w : W) : Event.Env F Unit where
  eval := fun v => Tests.text (H.env w).x.flt ((H.env w).eval v)
  user := H.user w
  maxRedirects := 0
  maxOut := 0
  maxReceived := 0
  maxNested := 0
  received := 0
  time := H.time
  ws := (H.env w).x.ws
  flagText := H.flagText w
  cache := fun _ _ => none
  registered := fun _ => none
  depth := 0

/-- Flags as the host gets them.  For `Host.action`, `context.rs:196-206`. -/
def Host.flags (H : Host W F N) (w : W) (vs : List (Val F)) : List String := (Event.flags (H.events w) vs).map String.ofList

/-- `Test::Size`, `src/compiler/grammar/tests/test_size.rs:33-52` (compiler), `src/runtime/tests/test_size.rs:11-21` (runtime). -/
def sizeIs (actual : Nat) (g : Got F) : Option Bool :=
  match g.tags, g.pos with
  | [(.Over, .flag)], [.num n] => some (Tests.sizeTest true n actual false)
  | [(.Under, .flag)], [.num n] => some (Tests.sizeTest false n actual false)
  | _, _ => none

/-- `TestResult::Bool`.  For `Host.test`, `src/runtime/tests/mod.rs:39-120`. -/
def boolOf (o : Tests.Outcome) : Option Bool :=
  match o.result with
  | .bool b => some b
  | _ => none

/-- `Test::exec`, `src/runtime/tests/mod.rs:39-120`, with `is_not = false`. -/
def Host.test [DecidableEq N] (H : Host W F N) (w : W) : Script.Node F → Option Bool
  | .test .Header g => (Header.of g).bind fun i => (Written.header (H.env w) false 0 (H.fuel w) i).bind boolOf
  | .test .Address g => (Address.of g).bind fun i => (Written.address (H.env w) false 0 (H.fuel w) i).bind boolOf
  | .test .Envelope g => (Envelope.of g).bind fun i => boolOf (Written.envelope (H.env w) false 0 i)
  | .test .Exists g => (Exists.of g).bind fun i => Written.exists (H.env w) false (H.fuel w) i
  | .test .Size g => sizeIs (H.size w) g
  | _ => none

/-- The arguments of a command or test.  See `compiler/grammar/instruction.rs:146-829`. -/
def got : Script.Node F → Got F
  | .cmd _ g => g
  | .test _ g => g
  | _ => {}

/-- `parse_keep`, `action_keep.rs:31-50`. -/
def keepFlags (g : Got F) : List (Val F) :=
  match g.tags with
  | [(.Flags, .vals vs)] => vs
  | _ => []

/-- `parse_reject`, `action_reject.rs:28-37`; `Instruction::Reject`, `context.rs:226-232`. -/
def rejection (H : Host S F N) (see : Vm.View W V → S) (extended : Bool) (g : Got F) : Vm.Instr W V Place :=
  match g.pos with
  | [.val reason] => .reject fun v => .sender extended ((H.events (see v)).eval reason)
  | _ => .invalid .nowhere

/-- `Instruction::Keep`, `context.rs:196-206`; `FileInto::exec`, `src/runtime/actions/action_fileinto.rs:10-40`; `Redirect::exec`,
`src/runtime/actions/action_redirect.rs:15-85`.  `see` is what the host reads of the state of the interpreter. -/
def Host.action (H : Host S F N) (see : Vm.View W V → S) : Script.Node F → Vm.Instr W V Place
  | .require ns => .require (H.caps ns)
  | .cmd .Keep g => .keep fun v => H.flags (see v) (keepFlags g)
  | .cmd .Discard _ => .discard
  | .cmd .Stop _ => .stop
  | .cmd .FileInto g =>
    match FileInto.of g with
    | some i => .fileInto i.copy
        (fun v => let text := (H.events (see v)).eval
          .folder (text i.folder) (i.mailboxId.map text) (i.specialUse.map text) i.create)
        (fun v => H.flags (see v) i.flags)
    | none => .invalid .nowhere
  | .cmd .Redirect g =>
    match Redirect.of g with
    | some i => .redirect i.list i.copy fun v =>
        (Address.sanitizeAddress ((H.events (see v)).eval i.address)).map fun a =>
          .address (if !i.list then .address a else .list a) i.dsn i.ret (Event.sentTime (H.events (see v)) i.byTime)
    | none => .invalid .nowhere
  | .cmd .Reject g => rejection H see false g
  | .cmd .Ereject g => rejection H see true g
  | _ => .invalid .nowhere

/-- The instruction of a command.  See `runtime/context.rs:124-441`. -/
def Host.act (H : Host W F N) (n : Script.Node F) : Vm.Instr W V Place :=
  if constant (got n) then H.action Vm.View.world n else .invalid .nowhere

theorem action_plain (H : Host S F N) (see : Vm.View W V → S) (n : Script.Node F) : Source.Plain (H.action see n) := by
  unfold Host.action
  split <;> first | trivial | (split <;> trivial) | (unfold rejection; split <;> trivial)

theorem act_plain (H : Host W F N) (n : Script.Node F) : Source.Plain (H.act n : Vm.Instr W V Place) := by
  unfold Host.act
  split
  · exact action_plain H _ n
  · trivial

/-- The core language for the interpreter.  See `runtime/context.rs:124-441`. -/
def Host.interp [DecidableEq N] (H : Host W F N) (cfg : Vm.Cfg W V Place) (notV : V → V)
    (not_spec : ∀ v, cfg.toBool (notV v) = !cfg.toBool v) : Source.Interp cfg (Script.Node F) (Script.Node F) (List UInt8) where
  act := H.act
  plain := act_plain H
  test := fun n v =>
    match if constant (got n) then H.test v.world n else none with
    | some b => ⟨.bool b, v.matchv, v.world, false⟩
    | none => ⟨.error .nowhere, v.matchv, v.world, false⟩
  expr := fun _ v => .call .nowhere v.world
  bad := fun _ => .nowhere
  notV := notV
  not_spec := not_spec

end Sieve.Core
