import Verif.FieldsProps
import Verif.AddressModel
import Verif.FlagsDeliver

/-!
# Events

Model of the commands and tests that are mostly requests to the host: `fileinto`, `redirect`, `keep`, `reject`, `ereject`,
`include`, `mailboxexists`, `mailboxidexists`, `specialuse_exists`.  Instructions are those of `FieldsModel`.

What is simplified.

* The value of an argument, `ctx.eval_value(v).to_string()`, is a parameter (`Env.eval`); it does not change while a command is
  executed.  So are the text of a date (`Env.time`), the header fields of the message and the scripts known to the runtime.
* `queued_events` is empty when a command starts (`Context::run`, see `VmModel`); the events of a command are a list.
-/

namespace Sieve.Event

open Sieve.Args Sieve.Fields

/-- For `Recipient`, `lib.rs:283-287`. -/
abbrev Text := List Char

/-- `Recipient`, `lib.rs:283-287`, without groups, which are not made by `redirect`. -/
inductive Recipient where
  | address (a : Text)
  | list (a : Text)
deriving DecidableEq

/-- `Mailbox`, `lib.rs:298-301`. -/
inductive Mailbox where
  | name (m : Text)
  | id (m : Text)
deriving DecidableEq

/-- `Event`, `lib.rs:183-247`: the events of these commands. -/
inductive Event where
  | keep (flags : List Text) (messageId : Nat)
  | discard
  | reject (extended : Bool) (reason : Text)
  | fileInto (folder : Text) (flags : List Text) (mailboxId specialUse : Option Text) (create : Bool) (messageId : Nat)
  | send (recipient : Recipient) (dsn : Dsn) (ret : Ret) (byTime : ByTime Int) (messageId : Nat)
  | created (messageId : Nat) (message : List UInt8)
  | mailboxExists (mailboxes : List Mailbox) (specialUse : List Text)
  | includeScript (isGlobal : Bool) (name : Text) (optional : Bool)
deriving DecidableEq

/-- What a command reads.  For `sentTime`, `src/runtime/actions/action_redirect.rs:51-76`. -/
structure Env (F S : Type) where
  /-- `ctx.eval_value(v).to_string()` -/
  eval : Val F → Text
  /-- `ctx.user_address` -/
  user : Text
  maxRedirects : Nat
  maxOut : Nat
  maxReceived : Nat
  maxNested : Nat
  /-- the number of `Received` fields of the message -/
  received : Nat
  /-- the timestamp of a valid RFC 3339 date -/
  time : Text → Option Int
  /-- `char::is_whitespace` -/
  ws : Char → Bool
  /-- `vars_global["__flags"]` -/
  flagText : Text
  /-- `script_cache`, personal and global scripts -/
  cache : Bool → Text → Option S
  /-- `runtime.include_scripts` -/
  registered : Text → Option S
  /-- `script_stack.len()` -/
  depth : Nat

/-- What a command changes.  For `buildMessageId`, `src/runtime/actions/action_mime.rs:383-396`. -/
structure State where
  hasChanges : Bool
  lastId : Nat
  mainId : Nat
  /-- what `build_message` would give -/
  message : List UInt8
  final : Option Event
  numRedirects : Nat
  numOut : Nat

variable {F S : Type}

/-- `build_message_id`, `src/runtime/actions/action_mime.rs:383-396`. -/
def buildMessageId (st : State) : Option Event × State :=
  if st.hasChanges then
    let id := st.lastId + 1
    (some (.created id st.message), { st with lastId := id, mainId := id, hasChanges := false })
  else (none, st)

/-- `ByTime::Absolute { alimit: … }`, `src/runtime/actions/action_redirect.rs:51-76` (runtime). -/
def sentTime (env : Env F S) : ByTime (Val F) → ByTime Int
  | .relative n m t => .relative n m t
  | .absolute v m t => .absolute ((env.time (env.eval v)).getD 0) m t
  | .none => .none

/-- `u8::eq_ignore_ascii_case` for all bytes, on characters.  For `redirect`, `src/runtime/actions/action_redirect.rs:15-85`. -/
def eqIgnoreAsciiCase (a b : Text) : Bool :=
  a.map Char.toLower = b.map Char.toLower

/-- `Redirect::exec`, `src/runtime/actions/action_redirect.rs:15-85` (runtime). -/
def redirect (env : Env F S) (i : Redirect F) (st : State) : List Event × State :=
  match Address.sanitizeAddress (env.eval i.address) with
  | none => ([], st)
  | some address =>
    if st.numRedirects < env.maxRedirects && st.numOut < env.maxOut && env.received < env.maxReceived then
      if !i.list && eqIgnoreAsciiCase address env.user then ([], st)
      else
        let st := if !i.copy then
            match st.final with
            | some (.keep _ _) => { st with final := none }
            | _ => st
          else st
        let (event, st) := buildMessageId st
        let st := { st with numRedirects := st.numRedirects + 1, numOut := st.numOut + 1 }
        (event.toList ++ [.send (if !i.list then .address address else .list address) i.dsn i.ret (sentTime env i.byTime) st.mainId], st)
    else ([], st)

/-- `get_local_or_global_flags`, `src/runtime/actions/action_flags.rs:133-139`. -/
def flags (env : Env F S) (vs : List (Val F)) : List Text :=
  Flags.localOrGlobal env.ws env.flagText (vs.map env.eval)

/-- `FileInto::exec`, `src/runtime/actions/action_fileinto.rs:10-40` (runtime). -/
def fileInto (env : Env F S) (i : FileInto F) (st : State) : List Event × State :=
  let folder := env.eval i.folder
  let (event, st) := buildMessageId st
  let withFlags := match st.final with
    | some (.keep (_ :: _) _) => true
    | _ => false
  let st := if !i.copy && !withFlags then { st with final := none } else st
  (event.toList ++ [.fileInto folder (flags env i.flags) (i.mailboxId.map env.eval) (i.specialUse.map env.eval) i.create st.mainId], st)

/-- `Instruction::Keep`, `context.rs:196-206`, with `parse_keep`, `action_keep.rs:31-50`. -/
def keep (env : Env F S) (g : Got F) (st : State) : List Event × State :=
  let vs := match g.tags with
    | [(.Flags, .vals vs)] => vs
    | _ => []
  let (event, st) := buildMessageId st
  (event.toList, { st with final := some (.keep (flags env vs) st.mainId) })

/-- `Instruction::Reject`, `context.rs:226-232`, with `parse_reject`, `action_reject.rs:29-36` and `instruction.rs:415-432`. -/
def reject (env : Env F S) (ereject : Bool) (reason : Val F) (st : State) : List Event × State :=
  ([.reject ereject (env.eval reason)], { st with final := none })

/-- `IncludeResult`, `src/runtime/actions/action_include.rs:15-20`. -/
inductive Included (S : Type) where
  | cached (s : S)
  | event (e : Event)
  | tooMany
  | none

/-- `Include::exec`, `src/runtime/actions/action_include.rs:23-52` (runtime). -/
def «include» (env : Env F S) (i : Include F) : Included S :=
  let name := env.eval i.value
  if !name.isEmpty then
    let cached := env.cache i.isGlobal name
    if !i.once || cached.isNone then
      if env.depth < env.maxNested then
        match cached.or (env.registered name) with
        | some s => .cached s
        | none => .event (.includeScript i.isGlobal name i.optional)
      else .tooMany
    else .none
  else .none

/-- `Test::MailboxExists`, `src/runtime/tests/mod.rs:60-69`, with `parse_test_mailboxexists`, `test_mailbox.rs:85-90`. -/
def mailboxExists (env : Env F S) (names : List (Val F)) : Event :=
  .mailboxExists (names.map fun m => .name (env.eval m)) []

/-- `Test::MailboxIdExists`, `src/runtime/tests/mod.rs:73-82`, with `parse_test_mailboxidexists`, `test_mailboxid.rs:30-35`. -/
def mailboxIdExists (env : Env F S) (ids : List (Val F)) : Event :=
  .mailboxExists (ids.map fun m => .id (env.eval m)) []

/-- `TestSpecialUseExists`, `test_specialuse.rs:27-31`. -/
structure SpecialUse (F : Type) where
  mailbox : Option (Val F)
  attributes : List (Val F)

/-- `parse_test_specialuseexists`, `test_specialuse.rs:34-55`. -/
def SpecialUse.of (g : Got F) : Option (SpecialUse F) :=
  match g.pos with
  | [.vals maybe, .vals attributes] => some ⟨maybe.getLast?, attributes⟩
  | [.vals attributes] => some ⟨none, attributes⟩
  | _ => none

/-- `Test::SpecialUseExists`, `src/runtime/tests/mod.rs:85-97`. -/
def specialUseExists (env : Env F S) (i : SpecialUse F) : Event :=
  .mailboxExists (match i.mailbox with
    | some m => [.name (env.eval m)]
    | none => []) (i.attributes.map env.eval)

end Sieve.Event
