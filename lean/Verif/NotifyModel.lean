import Verif.VacationModel
import Verif.AddressModel

/-!
# Notifications

Model of `Notify::exec` (`src/runtime/actions/action_notify.rs:20-287`).

Arguments of the action are evaluated already; evaluating them changes nothing in the context.  Text is a list of
characters where the code writes UTF-8; the two are related by the parameters `encode` and `decode`.  The message the
notification is about is given by its header fields and its subject (`Message::subject`); the date and the message id of
the notification are parameters.  The names of the fields of a `mailto` URI are texts here and `HeaderName`s in the code.
-/

namespace Sieve.Notify
open Sieve.Tests (Str Field)
open Sieve.Vacation (Hd asText lower same cutSubject)
open Sieve.Address (MExt parseMailto)

/-- What is not modelled: UTF-8, and what `parse_mailto` needs.  For `mailOf`, `src/runtime/actions/action_notify.rs:380-557`. -/
structure Ext where
  encode : Str → List UInt8
  decode : List UInt8 → Str
  mailto : MExt

/-- What the action reads of the context and of the configuration.  For `sender`, `src/runtime/actions/action_notify.rs:62-76`. -/
structure Ctx where
  /-- `message.parts[0].headers` -/
  headers : List (Hd × Field)
  /-- `message.subject()` -/
  subject : Option Str
  /-- `user_address` -/
  user : Str
  /-- `user_from_field()` -/
  userFrom : Str
  /-- `num_out_messages` -/
  numOut : Nat
  /-- `max_out_messages` -/
  maxOut : Nat
  /-- `last_message_id` -/
  lastId : Nat

/-- `FileCarbonCopy`, `src/lib.rs:260-266`, evaluated. -/
structure Fcc where
  mailbox : Str
  flags : List Str
  mailboxId : Option Str
  specialUse : Option Str
  create : Bool
deriving DecidableEq

/-- `Notify`, `src/compiler/grammar/actions/action_notify.rs:40-47`, evaluated. -/
structure Args where
  method : Str
  «from» : Option Str
  importance : Option Str
  options : List Str
  message : Option Str
  fcc : Option Fcc

/-- `Importance`, `src/lib.rs:269-273`. -/
inductive Importance where
  | high | normal | low
deriving DecidableEq

/-- The events the action queues, `src/lib.rs:183-247` `Event`. -/
inductive Ev where
  | created (id : Nat) (message : Str)
  | send (rcpts : List Str) (id : Nat)
  | notify (method : Str) («from» : Option Str) (importance : Importance) (options : List Str) (message : Str)
  | fileInto (f : Fcc) (id : Nat)
deriving DecidableEq

/-- `src/runtime/actions/action_notify.rs:22-32`: the message was sent automatically. -/
def automatic : Hd × Field → Bool
  | (.other name, f) =>
    same name "Auto-Submitted".toList &&
      match asText f.parsed with
      | none => true
      | some v => !same v "no".toList
  | _ => false

/-- `parse_uri`, `src/runtime/actions/action_notify.rs:347-355`. -/
def parseUri : Str → Option (Str × Str)
  | [] => none
  | c :: cs =>
    if c = ':' then (if cs.isEmpty then none else some ([], cs))
    else (parseUri cs).map fun r => (c :: r.1, r.2)

/-- `MailtoMessage` (`src/runtime/actions/action_notify.rs:372-378`) as text. -/
structure Mail where
  to_ : List Str
  cc : List Str
  bcc : List Str
  body : Option Str
  headers : List (Str × Str)
deriving DecidableEq

/-- `parse_mailto`, `src/runtime/actions/action_notify.rs:380-557`, of text. -/
def mailOf (x : Ext) (s : Str) : Option Mail :=
  (parseMailto x.mailto (x.encode s)).map fun m =>
    ⟨m.to_.map x.decode, m.cc.map x.decode, m.bcc.map x.decode, m.body.map x.decode,
      m.headers.map fun h => (x.decode h.1, x.decode h.2)⟩

/-- The names of fields the action distinguishes.  For `kind`, `src/runtime/actions/action_notify.rs:537-541`. -/
inductive Kind where
  | subject | date | messageId | «from» | other
deriving DecidableEq

/-- Which of them a field of the URI has.  A name at the end of the URI without a text is not looked up
(`src/runtime/actions/action_notify.rs:537-541`); other fields have a text. -/
def kind (h : Str × Str) : Kind :=
  if h.2.isEmpty then .other
  else if same h.1 "Subject".toList then .subject
  else if same h.1 "Date".toList then .date
  else if same h.1 "Message-ID".toList then .messageId
  else if same h.1 "From".toList then .from
  else .other

/-- `src/runtime/actions/action_notify.rs:62-76` -/
def sender (c : Ctx) (a : Args) : Str :=
  match a.from with
  | some f => if Tests.infixOf (lower c.user) (lower f) then f else c.userFrom
  | none => c.userFrom

/-- `src/runtime/actions/action_notify.rs:108-117` -/
def angled (s : Str) : Str := if s.contains '<' then s else '<' :: (s ++ ['>'])

/-- `src/runtime/actions/action_notify.rs:103-117` -/
def joined : List Str → Str
  | [] => []
  | [s] => angled s
  | s :: ss => angled s ++ ", ".toList ++ joined ss

/-- `src/runtime/actions/action_notify.rs:101-120` -/
def addressField (name : Str) (ss : List Str) : Str :=
  if ss.isEmpty then [] else name ++ joined ss ++ "\r\n".toList

/-- `src/runtime/actions/action_notify.rs:125-147` -/
def extraFields : List (Str × Str) → Str
  | [] => []
  | h :: hs =>
    (match kind h with
      | .subject | .from => []
      | _ => h.1 ++ ": ".toList ++ h.2 ++ "\r\n".toList) ++ extraFields hs

/-- `has_subject`: the text of the last subject, `src/runtime/actions/action_notify.rs:127-130`. -/
def lastSubject : List (Str × Str) → Option Str → Option Str
  | [], s => s
  | h :: hs, s => lastSubject hs (if kind h = .subject then some h.2 else s)

/-- `src/runtime/actions/action_notify.rs:161-170` -/
def priority (a : Args) : Str × Str :=
  match a.importance with
  | none => ("Normal".toList, "3 (Normal)".toList)
  | some i =>
    if i = "1".toList then ("High".toList, "1 (High)".toList)
    else if i = "3".toList then ("Low".toList, "5 (Low)".toList)
    else ("Normal".toList, "3 (Normal)".toList)

/-- The text given by `:message`, or the subject of the message: `src/runtime/actions/action_notify.rs:182-186`, `208-212` and `258-264`. -/
def text (c : Ctx) (a : Args) : Str :=
  match a.message with
  | some t => t
  | none => c.subject.getD []

/-- `src/runtime/actions/action_notify.rs:180-187` -/
def subject (c : Ctx) (a : Args) (m : Mail) : Str :=
  match lastSubject m.headers none with
  | some s => s
  | none => text c a

/-- `src/runtime/actions/action_notify.rs:206-212` -/
def body (c : Ctx) (a : Args) (m : Mail) : Str :=
  match m.body with
  | some b => b
  | none => text c a

/-- `src/runtime/actions/action_notify.rs:77-212`: the message. -/
def render (c : Ctx) (a : Args) (m : Mail) (date msgId : Str) : Str :=
  "From: ".toList ++ sender c a ++ "\r\n".toList
  ++ addressField "To: ".toList m.to_
  ++ addressField "Cc: ".toList m.cc
  ++ extraFields m.headers
  ++ (if m.headers.any fun h => kind h = .date then [] else "Date: ".toList ++ date ++ "\r\n".toList)
  ++ (if m.headers.any fun h => kind h = .messageId then [] else "Message-ID: ".toList ++ msgId ++ "\r\n".toList)
  ++ "Importance: ".toList ++ (priority a).1 ++ "\r\n".toList
  ++ "X-Priority: ".toList ++ (priority a).2 ++ "\r\n".toList
  ++ "Subject: ".toList ++ cutSubject (subject c a m) ++ "\r\n".toList
  ++ "Auto-Submitted: auto-notified\r\n".toList
  ++ "X-Sieve: yes\r\n".toList
  ++ "Content-type: text/plain; charset=utf-8\r\n\r\n".toList
  ++ body c a m

/-- `str::rsplit_once` with a character: the texts before and after its last occurrence.
For `bare`, `src/runtime/actions/action_notify.rs:229-238`. -/
def rsplit (ch : Char) : Str → Option (Str × Str)
  | [] => none
  | c :: cs =>
    match rsplit ch cs with
    | some (a, b) => some (c :: a, b)
    | none => if c = ch then some ([], cs) else none

/-- `src/runtime/actions/action_notify.rs:229-238`: the address in angle brackets. -/
def bare (s : Str) : Str :=
  match rsplit '<' s with
  | none => s
  | some (_, r) =>
    match rsplit '>' r with
    | none => s
    | some (t, _) => t

/-- `src/runtime/actions/action_notify.rs:250-256` -/
def importance (a : Args) : Importance :=
  match a.importance with
  | none => .normal
  | some i => if i = "1".toList then .high else if i = "3".toList then .low else .normal

/-- The fields of an empty `MailtoMessage`, `src/runtime/actions/action_notify.rs:53-59`. -/
def noMail : Mail := ⟨[], [], [], none, []⟩

/-- What the action does: the events it queues, and the changed numbers of the context.
For `exec`, `src/runtime/actions/action_notify.rs:20-287`. -/
structure Result where
  events : List Ev
  lastId : Nat
  numOut : Nat
deriving DecidableEq

/-- `src/runtime/actions/action_notify.rs:268-283` -/
def fileCopy (a : Args) (id : Nat) : List Ev :=
  match a.fcc with
  | none => []
  | some f => [.fileInto f id]

/-- `Notify::exec`, `src/runtime/actions/action_notify.rs:20-287`. -/
def exec (x : Ext) (c : Ctx) (a : Args) (date msgId : Str) : Result :=
  if c.headers.any automatic then ⟨[], c.lastId, c.numOut⟩
  else
    match parseUri a.method with
    | none => ⟨[], c.lastId, c.numOut⟩
    | some (scheme, rest) =>
      if same scheme "mailto".toList && c.numOut < c.maxOut then
        match mailOf x rest with
        | none => ⟨[], c.lastId, c.numOut⟩
        | some m =>
          ⟨.created (c.lastId + 1) (render c a m date msgId)
              :: .send ((m.to_ ++ m.cc ++ m.bcc).map bare) (c.lastId + 1) :: fileCopy a (c.lastId + 1),
            c.lastId + 1, c.numOut⟩
      else
        let ev := Ev.notify a.method a.from (importance a) a.options (text c a)
        if a.fcc.isSome then
          ⟨.created (c.lastId + 1) (render c a noMail date msgId) :: ev :: fileCopy a (c.lastId + 1),
            c.lastId + 1, c.numOut + 1⟩
        else ⟨[ev], c.lastId, c.numOut + 1⟩

/-! ## The address given by `:from` -/

/-- The local variables of `validate_from`.  For `fromStep`, `src/runtime/actions/action_notify.rs:297-331`. -/
structure FromState where
  hasAt : Bool
  hasDot : Bool
  quote : Bool
  angle : Bool
  last : UInt8

/-- `u8::is_ascii_alphanumeric`.  For `fromStep`, `src/runtime/actions/action_notify.rs:297-331`. -/
def alnum (b : UInt8) : Bool := (48 ≤ b && b ≤ 57) || (65 ≤ b && b ≤ 90) || (97 ≤ b && b ≤ 122)

/-- `src/runtime/actions/action_notify.rs:297-331`: the body of the loop; `none` is `return false`. -/
def fromStep (s : FromState) (ch : UInt8) : Option FromState :=
  if ch = 34 then some { s with quote := if s.last ≠ 92 then !s.quote else s.quote, last := ch }
  else if ch = 60 ∧ s.quote = false then
    if s.angle = false then some { s with angle := true, hasAt := false, hasDot := false, last := ch } else none
  else if ch = 62 ∧ s.quote = false then
    if s.angle = true then some { s with angle := false, last := ch } else none
  else if ch = 64 ∧ s.quote = false then
    if s.hasAt = false ∧ alnum s.last = true then some { s with hasAt := true, last := ch } else none
  else if ch = 46 ∧ s.quote = false ∧ s.hasAt = true then some { s with hasDot := true, last := ch }
  else some { s with last := ch }

/-- For `validateFrom`, `src/runtime/actions/action_notify.rs:289-335`. -/
def fromLoop : FromState → List UInt8 → Option FromState
  | s, [] => some s
  | s, ch :: cs => (fromStep s ch).bind fun s => fromLoop s cs

/-- `validate_from`, `src/runtime/actions/action_notify.rs:289-335`. -/
def validateFrom (addr : List UInt8) : Bool :=
  match fromLoop ⟨false, false, false, false, 0⟩ addr with
  | none => false
  | some s => s.hasDot && s.hasAt && !s.angle

end Sieve.Notify
