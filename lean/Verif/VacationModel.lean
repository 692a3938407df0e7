import Verif.TestsModel

/-!
# Vacation

Model of `TestVacation::exec` and `Vacation::exec` (`src/runtime/actions/action_vacation.rs`).

Arguments of the action (`:addresses`, `:handle`, the reason, …) are evaluated already; evaluating them
changes nothing in the context (a `:subject` that is a number or a list is taken as its text).  Header values are as in `TestsModel`.  The date and the message id of the
reply are parameters.  Text is a list of characters where the code writes UTF-8.
-/

namespace Sieve.Vacation
open Sieve.Expr (Val)
open Sieve.Tests (Ext Field Parsed Str addressValues)

variable {F : Type}

/-- The names of header fields that the action distinguishes (`mail_parser`'s `HeaderName`); `misc` are
all the others that have a number.  For `scanHeaders`, `src/runtime/actions/action_vacation.rs:79-137`. -/
inductive Hd where
  | to | cc | bcc | resentTo | resentCc | resentBcc
  | listArchive | listHelp | listId | listOwner | listPost | listSubscribe | listUnsubscribe
  | received | subject | messageId | references | «from» | sender
  | misc (n : Nat)
  | other (name : Str)
deriving DecidableEq

/-- `Envelope`, `src/lib.rs:155-166`. -/
inductive Env where
  | «from» | to | orcpt | misc (n : Nat)
deriving DecidableEq

/-- `Period`, `src/compiler/grammar/actions/action_vacation.rs:62-66`. -/
inductive Period where
  | days (n : Nat) | seconds (n : Nat) | default

/-- What the action reads of the context and of the configuration.  For `test`, `src/runtime/actions/action_vacation.rs:27-159`. -/
structure Ctx (F : Type) where
  envelope : List (Env × Val F)
  /-- `user_address` -/
  user : Str
  /-- `user_from_field()` -/
  userFrom : Str
  /-- `message.parts[0].headers` -/
  headers : List (Hd × Field)
  /-- `num_out_messages` -/
  numOut : Nat
  /-- `max_out_messages` -/
  maxOut : Nat
  /-- `vacation_use_orig_rcpt` -/
  useOrig : Bool
  /-- `max_received_headers` -/
  maxReceived : Nat
  /-- `default_vacation_expiry` -/
  expiry : Nat
  /-- `vacation_subject_prefix` -/
  «prefix» : Str
  /-- `vacation_default_subject` -/
  defaultSubject : Str

/-- `TestVacation`, `src/compiler/grammar/actions/action_vacation.rs:46-51`, evaluated. -/
structure Args where
  addresses : List Str
  handle : Option Str
  reason : Str
  period : Period

/-- `to_ascii_lowercase`.  For `scanEnvelope`, `src/runtime/actions/action_vacation.rs:35-55`. -/
def lowerChar (c : Char) : Char :=
  if 'A' ≤ c ∧ c ≤ 'Z' then Char.ofNat (c.toNat + 32) else c

/-- For `scanEnvelope`, `src/runtime/actions/action_vacation.rs:35-55`. -/
def lower (s : Str) : Str := s.map lowerChar

/-- `eq_ignore_ascii_case`.  For `scanHeaders`, `src/runtime/actions/action_vacation.rs:79-137`. -/
def same (a b : Str) : Bool := lower a == lower b

/-- `str::split(',')`.  For `scanHeaders`, `src/runtime/actions/action_vacation.rs:79-137`. -/
def splitComma : Str → List Str
  | [] => [[]]
  | c :: cs =>
    if c = ',' then [] :: splitComma cs
    else
      match splitComma cs with
      | [] => [[c]]
      | w :: ws => (c :: w) :: ws

/-- `str::trim`.  For `scanHeaders`, `src/runtime/actions/action_vacation.rs:79-137`. -/
def trim (x : Ext F) (s : Str) : Str :=
  ((s.dropWhile x.ws).reverse.dropWhile x.ws).reverse

/-- `src/runtime/actions/action_vacation.rs:35-55`: the loop over the envelope. -/
def scanEnvelope (x : Ext F) (useOrig : Bool) : List (Env × Val F) → Str × List Str → Str × List Str
  | [], s => s
  | (n, v) :: es, (fr, us) =>
    scanEnvelope x useOrig es <|
      if Tests.isEmpty v then (fr, us)
      else
        match n with
        | .from => (lower (Tests.text x.flt v), us)
        | .to => if !useOrig then (fr, us ++ [Tests.text x.flt v]) else (fr, us)
        | .orcpt => if useOrig then (fr, us ++ [Tests.text x.flt v]) else (fr, us)
        | .misc _ => (fr, us)

/-- `HeaderValue::as_text`.  For `scanHeaders`, `src/runtime/actions/action_vacation.rs:79-137`. -/
def asText : Parsed → Option Str
  | .text t => some t
  | _ => none

/-- `src/runtime/actions/action_vacation.rs:79-137`: the loop over the headers; `none` is `return TestResult::Bool(false)`. -/
def scanHeaders (x : Ext F) (users : List Str) : List (Hd × Field) → Bool × Nat → Option (Bool × Nat)
  | [], s => some s
  | (n, f) :: hs, (found, rcv) =>
    match n with
    | .to | .cc | .bcc | .resentTo | .resentBcc | .resentCc =>
      if !found then
        scanHeaders x users hs ((addressValues x .all f).any fun a => users.any fun u => same u a, rcv)
      else scanHeaders x users hs (found, rcv)
    | .listArchive | .listHelp | .listId | .listOwner | .listPost | .listSubscribe | .listUnsubscribe => none
    | .received => scanHeaders x users hs (found, rcv + 1)
    | .other name =>
      if same name "Auto-Submitted".toList then
        match asText f.parsed with
        | none => none
        | some v => if !same v "no".toList then none else scanHeaders x users hs (found, rcv)
      else if same name "X-Auto-Response-Suppress".toList then
        match asText f.parsed with
        | none => scanHeaders x users hs (found, rcv)
        | some v =>
          if (splitComma (lower v)).any fun w => ["all".toList, "oof".toList].contains (trim x w) then none
          else scanHeaders x users hs (found, rcv)
      else if same name "Precedence".toList then
        match asText f.parsed with
        | none => scanHeaders x users hs (found, rcv)
        | some v => if same v "bulk".toList then none else scanHeaders x users hs (found, rcv)
      else scanHeaders x users hs (found, rcv)
    | _ => scanHeaders x users hs (found, rcv)

/-- `Event::DuplicateId`.  For `test`, `src/runtime/actions/action_vacation.rs:27-159`. -/
structure Query where
  id : Str
  expiry : Nat
  last : Bool
deriving DecidableEq

/-- `TestVacation::exec`, `src/runtime/actions/action_vacation.rs:27-159`: the event (with `is_not`), or `none` for
`TestResult::Bool(false)`. -/
def test (x : Ext F) (c : Ctx F) (a : Args) : Option (Query × Bool) :=
  if c.maxOut ≤ c.numOut then none
  else
    let s := scanEnvelope x c.useOrig c.envelope ([], [])
    let sndr := s.1
    let users := s.2 ++ (a.addresses.filter fun t => !t.isEmpty) ++ (if !c.user.isEmpty then [c.user] else [])
    if sndr.isEmpty || users.isEmpty || "mailer-daemon".toList.isPrefixOf sndr || "owner-".toList.isPrefixOf sndr
        || Tests.infixOf "-request@".toList sndr || users.any fun u => same u sndr then none
    else
      match scanHeaders x users c.headers (false, 0) with
      | none => none
      | some (found, rcv) =>
        if found && rcv ≤ c.maxReceived then
          some (⟨"_v".toList ++ sndr ++ (match a.handle with
              | some h => h
              | none => a.reason),
            (match a.period with
              | .days n => n * 86400
              | .seconds n => n
              | .default => c.expiry), false⟩, true)
        else none

/-! ## The reply -/

/-- `Vacation`, `src/compiler/grammar/actions/action_vacation.rs:29-35`, evaluated. -/
structure Reply where
  subject : Option Str
  «from» : Option Str
  reason : Str
  mime : Bool

/-- `MAX_SUBJECT_LEN`.  For `cutSubject`, `src/runtime/actions/action_vacation.rs:189-210`. -/
def maxSubject : Nat := 256

/-- `src/runtime/actions/action_vacation.rs:189-210`: the first `MAX_SUBJECT_LEN` characters; the loop takes one more from the
iterator before it ends. -/
def cutSubject (s : Str) : Str :=
  s.take maxSubject ++ (if maxSubject + 1 < s.length then ['…'] else [])

/-- What the loop over the headers collects, `src/runtime/actions/action_vacation.rs:181-236`. -/
structure Found where
  subject : Str
  messageId : Option Str
  toFull : Option Str
  refs : Option Str

/-- `src/runtime/actions/action_vacation.rs:181-236`, the body of the loop; `names rcpt p` is `Address::contains`, `bytes` reads the
header from the raw message (`none` if it was added by the script, `offset_start = 0`). -/
def replyStep (names : Str → Parsed → Bool) (bytes : Field → Option Str) («prefix» rcpt : Str) (n : Hd) (f : Field)
    (s : Found) : Found :=
  match n with
  | .subject =>
    if s.subject.isEmpty then
      match asText f.parsed with
      | some t => { s with subject := cutSubject («prefix» ++ t) }
      | none => s
    else s
  | .messageId => { s with messageId := asText f.parsed }
  | .references =>
    match bytes f with
    | some r => { s with refs := some r }
    | none => s
  | .from | .sender =>
    if names rcpt f.parsed then
      match bytes f with
      | some r => { s with toFull := some r }
      | none => s
    else s
  | _ => s

/-- `src/runtime/actions/action_vacation.rs:181-236`, the loop over the headers. -/
def scanReply (names : Str → Parsed → Bool) (bytes : Field → Option Str) («prefix» rcpt : Str) :
    List (Hd × Field) → Found → Found
  | [], s => s
  | (n, f) :: hs, s => scanReply names bytes «prefix» rcpt hs (replyStep names bytes «prefix» rcpt n f s)

/-- `write_header`, `src/runtime/actions/action_vacation.rs:339-343`. -/
def writeHeader (name value : Str) : Str := name ++ value ++ "\r\n".toList

/-- `src/runtime/actions/action_vacation.rs:164-171`: the first sender given. -/
def recipient (x : Ext F) : List (Env × Val F) → Str
  | [] => []
  | (n, v) :: es => if !Tests.isEmpty v && n = .from then Tests.text x.flt v else recipient x es

/-- `src/runtime/actions/action_vacation.rs:238-252` -/
def sender (x : Ext F) (c : Ctx F) (r : Reply) : Str :=
  match r.from with
  | some f => f
  | none =>
    if !c.user.isEmpty then c.userFrom
    else
      match c.envelope.find? fun e => e.1 = Env.to with
      | some e => Tests.text x.flt e.2
      | none => []

/-- `src/runtime/actions/action_vacation.rs:253-306`: the message. -/
def render (date msgId : Str) («from» rcpt subject : Str) (s : Found) (r : Reply) : Str :=
  writeHeader "From: ".toList «from»
  ++ (match s.toFull with
    | some t => "To:".toList ++ t
    | none => writeHeader "To: ".toList rcpt)
  ++ writeHeader "Subject: ".toList subject
  ++ (match s.messageId with
    | none => []
    | some m =>
      "In-Reply-To: <".toList ++ m ++ ">\r\n".toList ++ "References: <".toList ++ m
        ++ match s.refs with
          | some rf => "> ".toList ++ rf
          | none => ">\r\n".toList)
  ++ "Date: ".toList ++ date ++ "\r\n".toList
  ++ "Message-ID: ".toList ++ msgId ++ "\r\n".toList
  ++ writeHeader "Auto-Submitted: ".toList "auto-replied".toList
  ++ (if !r.mime then "Content-type: text/plain; charset=utf-8\r\n\r\n".toList else [])
  ++ r.reason

/-- `Vacation::exec`, `src/runtime/actions/action_vacation.rs:163-336`: the message and its recipient (`Recipient::Address`);
the rest is `Vm.execVacation`. -/
def reply (x : Ext F) (names : Str → Parsed → Bool) (bytes : Field → Option Str) (date msgId : Str) (c : Ctx F)
    (r : Reply) : Str × Str :=
  let rcpt := recipient x c.envelope
  let s := scanReply names bytes c.prefix rcpt c.headers
    ⟨match r.subject with
      | some t => t
      | none => [], none, none, none⟩
  let subject := if s.subject.isEmpty then c.defaultSubject else s.subject
  (render date msgId (sender x c r) rcpt subject s r, rcpt)

end Sieve.Vacation
