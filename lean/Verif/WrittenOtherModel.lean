import Verif.BodyModel
import Verif.WrittenModel

/-!
# Other tests as they are written

Model of how the instructions of the tests `date`, `currentdate`, `body`, `duplicate`, `spamtest`, `virustest`, `metadata`,
`servermetadata` and `notify_method_capability` (`FieldsModel`) are executed by the runtime (`OtherTestsModel`,
`BodyModel`), as `WrittenModel` does for the others.
-/

namespace Sieve.Written

open Sieve.Args

/-- What these tests read besides what is in `Env`.  For `date`, `src/runtime/tests/test_date.rs:25-140`. -/
structure OtherEnv (F : Type) where
  dates : Tests.DateExt
  /-- `ctx.current_time` -/
  now : Int
  /-- the floating point number 1 -/
  one : F
  lib : Body.Lib
  /-- the message, for `body` -/
  msg : Body.Msg
  /-- `message.subject()`, or nothing -/
  subject : Tests.Str
  /-- `message.header_raw("Subject")`, or nothing -/
  rawSubject : Tests.Str
  /-- `MessageStream::parse_id` -/
  parseId : List UInt8 → Option Tests.Str
  /-- `message.message_id()` -/
  messageId : Option Tests.Str
  /-- `default_duplicate_expiry` -/
  expiry : Nat
  flt2 : Tests.Flt2 F
  /-- `ctx.spam_status` -/
  spam : Tests.Spam F
  /-- `ctx.virus_status` -/
  virus : Tests.Virus
  /-- `ctx.metadata` and `runtime.metadata` -/
  stored : List (Tests.Meta × Tests.Str)
  mailto : Address.MExt
  /-- `valid_notification_uris` -/
  notifyUris : List (List UInt8)

variable {F N : Type}

/-- `lookup_date_part`, `src/compiler/grammar/tests/test_date.rs:353-371` (compiler). -/
def datePartOf (s : List UInt8) : Option Tests.DatePart :=
  if s = bytes "year" then some .year
  else if s = bytes "month" then some .month
  else if s = bytes "day" then some .day
  else if s = bytes "date" then some .date
  else if s = bytes "julian" then some .julian
  else if s = bytes "hour" then some .hour
  else if s = bytes "minute" then some .minute
  else if s = bytes "second" then some .second
  else if s = bytes "time" then some .time
  else if s = bytes "iso8601" then some .iso8601
  else if s = bytes "std11" then some .std11
  else if s = bytes "zone" then some .zone
  else if s = bytes "weekday" then some .weekday
  else none

/-- `Zone`.  For `date`, `src/runtime/tests/test_date.rs:25-140`. -/
def zoneOf : Fields.Zone → Tests.Zone
  | .server => .local
  | .original => .original
  | .time z => .time z

/-- `TestDate::exec`, `src/runtime/tests/test_date.rs:25-140` (runtime).  The date part is one of those there are (`date_fields`). -/
def date [DecidableEq N] (env : Env F N) (o : OtherEnv F) (isNot : Bool) (captures fuel : Nat) (i : Fields.Date F) :
    Option Tests.Outcome :=
  (datePartOf i.part).bind fun dp =>
    Tests.dateExec env.x o.dates isNot (comparatorOf i.comparator) (matchOf captures i.matchType) (zoneOf i.zone) dp env.parts
      env.part (nameOf env i.header) i.index i.anyChild fuel (i.keys.map env.eval)

/-- `TestCurrentDate::exec`, `src/runtime/tests/test_date.rs:147-212` (runtime). -/
def currentdate (env : Env F N) (o : OtherEnv F) (isNot : Bool) (captures : Nat) (i : Fields.CurrentDate F) :
    Option Tests.Outcome :=
  (datePartOf i.part).map fun dp =>
    Tests.currentDateTest env.x o.one o.dates o.now i.zone dp isNot (comparatorOf i.comparator)
      (matchOf captures i.matchType) (i.keys.map env.eval)

/-- `BodyTransform` with its values evaluated, `src/runtime/tests/test_body.rs:62-77` (runtime). -/
def transformOf (env : Env F N) : Fields.BodyTransform F → Body.Transform F
  | .raw => .raw
  | .text => .text
  | .content vs => .content (vs.map env.eval)

/-- `src/runtime/tests/test_body.rs:26-31` (runtime). -/
def subjectOf (o : OtherEnv F) (included : Bool) : Fields.BodyTransform F → Option Tests.Str
  | .raw => if included then some o.rawSubject else none
  | _ => if included then some o.subject else none

/-- `TestBody::exec`, `src/runtime/tests/test_body.rs:20-223` (runtime). -/
def body (env : Env F N) (o : OtherEnv F) (isNot : Bool) (captures fuel : Nat) (i : Fields.Body F) : Option Bool :=
  Body.bodyTest env.x o.lib isNot (comparatorOf i.comparator) (matchOf captures i.matchType) (transformOf env i.body)
    (subjectOf o i.subject i.body) o.msg env.part fuel (i.keys.map env.eval)

/-- `DupMatch` with its values evaluated, `src/runtime/tests/test_duplicate.rs:20-56` (runtime). -/
def dupOf (env : Env F N) : Fields.DupMatch F → Tests.DupMatch F N
  | .messageId => .default
  | .header v => .header (nameOf env v)
  | .uniqueId v => .uniqueId (env.eval v)

/-- `TestDuplicate::exec`, `src/runtime/tests/test_duplicate.rs:17-73` (runtime). -/
def duplicate [DecidableEq N] (env : Env F N) (o : OtherEnv F) (isNot : Bool) (fuel : Nat) (i : Fields.Duplicate F) :
    Option Tests.DupResult :=
  Tests.duplicateExec env.x o.parseId o.messageId env.parts env.part fuel (dupOf env i.dup) (i.handle.map env.eval) i.seconds
    o.expiry i.last isNot

/-- `TestSpamTest::exec`, `src/runtime/tests/test_spamtest.rs:21-64` (runtime). -/
def spamtest (env : Env F N) (o : OtherEnv F) (isNot : Bool) (captures : Nat) (i : Fields.SpamTest F) : Tests.Outcome :=
  Tests.spamTest env.x o.flt2 o.spam i.percent (comparatorOf i.comparator) (matchOf captures i.matchType) (env.eval i.value)
    isNot

/-- `TestVirusTest::exec`, `src/runtime/tests/test_spamtest.rs:70-110` (runtime). -/
def virustest (env : Env F N) (o : OtherEnv F) (isNot : Bool) (captures : Nat) (i : Fields.SpamTest F) : Tests.Outcome :=
  Tests.virusTest env.x o.flt2 o.virus (comparatorOf i.comparator) (matchOf captures i.matchType) (env.eval i.value) isNot

/-- `TestMetadata::exec` on a mailbox, `test_metadata.rs:21-104` (runtime). -/
def metadata (env : Env F N) (o : OtherEnv F) (isNot : Bool) (captures : Nat) (i : Fields.TwoNames F) : Tests.Outcome :=
  Tests.metadataTest env.x o.one o.stored
    (.mailbox (Tests.text env.x.flt (env.eval i.first)) (Tests.text env.x.flt (env.eval i.second)))
    (comparatorOf i.comparator) (matchOf captures i.matchType) (i.keys.map env.eval) isNot

/-- `TestMetadata::exec` on the server, `test_metadata.rs:21-104` (runtime). -/
def servermetadata (env : Env F N) (o : OtherEnv F) (isNot : Bool) (captures : Nat) (i : Fields.OneName F) : Tests.Outcome :=
  Tests.metadataTest env.x o.one o.stored (.server (Tests.text env.x.flt (env.eval i.name)))
    (comparatorOf i.comparator) (matchOf captures i.matchType) (i.keys.map env.eval) isNot

/-- `TestNotifyMethodCapability::exec`, `src/runtime/tests/test_notify.rs:47-100` (runtime). -/
def notifyCapability (env : Env F N) (o : OtherEnv F) (isNot : Bool) (captures : Nat) (i : Fields.TwoNames F) : Bool :=
  Tests.notifyCapabilityTest env.x o.one o.mailto o.notifyUris (env.x.utf8 (Tests.text env.x.flt (env.eval i.first)))
    (Tests.text env.x.flt (env.eval i.second)) (comparatorOf i.comparator) (matchOf captures i.matchType)
    (i.keys.map env.eval) isNot

end Sieve.Written
