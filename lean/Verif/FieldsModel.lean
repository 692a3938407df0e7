import Verif.ArgsTable

/-!
# The instructions of commands and tests

Model of what the parsers of commands and tests do with the arguments they have read: the assignments to local variables
in their loops, and the instructions that are made of these variables.  `Got.tags` (`ArgsModel`) are the tagged arguments
in the order in which the loop reads them.

What is simplified.

* All parsers of actions have their variables in one record, `Vars`, and all parsers of tests in another, `TestVars`.  In
  the code every parser has its own variables, but a tag is treated alike in all actions and alike in all tests that know
  it.  Which tags a parser knows is in `commandEntry` and `testEntry`.
* Values are not yet resolved (`Val`), `match_test_pos` is the subject of `MatchVars`.  `validate_match`
  (`grammar/mod.rs:482-505`) turns the constant keys of `:regex` into compiled expressions of the same text; here they stay
  texts.
* `is_not` is set later (`test.rs:500-560`).
-/

namespace Sieve.Fields

open Sieve.Args

variable {F : Type}

/-- `RelationalMatch`, `grammar/mod.rs:129-136`. -/
inductive Rel where
  | gt | ge | lt | le | eq | ne
deriving DecidableEq

/-- `MatchType`, `grammar/mod.rs:110-118`. -/
inductive MatchType where
  | is | contains | glob | regex | list
  | value (r : Rel)
  | count (r : Rel)
deriving DecidableEq

/-- `Comparator`, `grammar/mod.rs:147-153`. -/
inductive Comparator where
  | octet | asciiCaseMap | asciiNumeric
  | other (s : List UInt8)
deriving DecidableEq

/-- `AddressPart`, `grammar/mod.rs:92-99`. -/
inductive AddressPart where
  | localPart | domain | all | user | detail | name
deriving DecidableEq

/-- `MimeOpts`, `src/compiler/grammar/actions/action_mime.rs:83-89`. -/
inductive MimeOpts (F : Type) where
  | none | type | subtype | contentType
  | param (vs : List (Val F))
deriving DecidableEq

/-- `BodyTransform`, `src/compiler/grammar/tests/test_body.rs:44-48`. -/
inductive BodyTransform (F : Type) where
  | raw | text
  | content (vs : List (Val F))
deriving DecidableEq

/-- `Zone`, `src/compiler/grammar/tests/test_date.rs:65-69`. -/
inductive Zone where
  | server | original
  | time (offset : Int)
deriving DecidableEq

/-- `DupMatch`, `src/compiler/grammar/tests/test_duplicate.rs:44-48`. -/
inductive DupMatch (F : Type) where
  | messageId
  | header (v : Val F)
  | uniqueId (v : Val F)
deriving DecidableEq

/-- `Period`, `src/compiler/grammar/actions/action_vacation.rs:62-66`. -/
inductive Period where
  | days (n : Nat)
  | seconds (n : Nat)
  | default
deriving DecidableEq

/-- `ByMode`, `src/compiler/grammar/actions/action_redirect.rs:120-124`. -/
inductive ByMode where
  | notify | ret | default
deriving DecidableEq

/-- `Ret`, `src/compiler/grammar/actions/action_redirect.rs:73-77`. -/
inductive Ret where
  | full | hdrs | default
deriving DecidableEq

/-- `NotifyItem`, `src/compiler/grammar/actions/action_redirect.rs:43-47`. -/
inductive NotifyItem where
  | success | failure | delay
deriving DecidableEq

/-- `Notify`, `src/compiler/grammar/actions/action_redirect.rs:58-62`. -/
inductive Dsn where
  | never
  | items (l : List NotifyItem)
  | default
deriving DecidableEq

/-- `ByTime`, `src/compiler/grammar/actions/action_redirect.rs:97-109`. -/
inductive ByTime (α : Type) where
  | relative (limit : Nat) (mode : ByMode) (trace : Bool)
  | absolute (limit : α) (mode : ByMode) (trace : Bool)
  | none
deriving DecidableEq

/-! ## Words -/

/-- `lookup_relational`, `grammar/mod.rs:572-582`. -/
def lookupRel (s : List UInt8) : Option Rel :=
  if s = bytes "gt" then some .gt
  else if s = bytes "ge" then some .ge
  else if s = bytes "lt" then some .lt
  else if s = bytes "le" then some .le
  else if s = bytes "eq" then some .eq
  else if s = bytes "ne" then some .ne
  else none

/-- `parse_comparator` and `lookup_comparator`, `grammar/mod.rs:292-299` and `584-591`. -/
def lookupComparator (s : List UInt8) : Comparator :=
  if s = bytes "i;octet" then .octet
  else if s = bytes "i;ascii-casemap" then .asciiCaseMap
  else if s = bytes "i;ascii-numeric" then .asciiNumeric
  else .other s

/-- `parse_match_type`, `grammar/mod.rs:263-290`. -/
def readMatchType : Word → Arg F → Option MatchType
  | .Is, _ => some .is
  | .Contains, _ => some .contains
  | .Matches, _ => some .glob
  | .Regex, _ => some .regex
  | .List, _ => some .list
  | .Value, .text s => (lookupRel s).map .value
  | _, .text s => (lookupRel s).map .count
  | _, _ => none

/-- `AddressPart::from`, `src/compiler/grammar/tests/test_address.rs:166-176`. -/
def readPart : Word → Option AddressPart
  | .LocalPart => some .localPart
  | .Domain => some .domain
  | .All => some .all
  | .User => some .user
  | .Detail => some .detail
  | .Name => some .name
  | _ => none

/-- `parse_mimeopts`, `src/compiler/grammar/actions/action_mime.rs:216-224`. -/
def readMimeOpts : Word → Arg F → Option (MimeOpts F)
  | .Type, _ => some .type
  | .Subtype, _ => some .subtype
  | .ContentType, _ => some .contentType
  | .Param, .vals vs => some (.param vs)
  | _, _ => none

/-- The value of `:notify`, `src/compiler/grammar/actions/action_redirect.rs:225-247`. -/
def readDsn (s : List UInt8) : Option Dsn :=
  if lower s = bytes "never" then some .never
  else
    let items := (splitComma s).filterMap fun i =>
      let i := lower (trim i)
      if i = bytes "success" then some NotifyItem.success
      else if i = bytes "failure" then some .failure
      else if i = bytes "delay" then some .delay
      else none
    if items.isEmpty then none else some (.items items)

/-- The value of `:bymode`, `src/compiler/grammar/actions/action_redirect.rs:175-182`. -/
def readMode (s : List UInt8) : Option ByMode :=
  if lower s = bytes "notify" then some .notify else if lower s = bytes "return" then some .ret else none

/-- The value of `:ret`, `src/compiler/grammar/actions/action_redirect.rs:209-216`. -/
def readRet (s : List UInt8) : Option Ret :=
  if lower s = bytes "full" then some .full else if lower s = bytes "hdrs" then some .hdrs else none

/-! ## Actions -/

/-- The variables of the parsers of actions.  For `Vars.set`, `src/compiler/grammar/actions/action_fileinto.rs:43-95`. -/
structure Vars (F : Type) where
  copy : Bool := false
  create : Bool := false
  list : Bool := false
  mime : Bool := false
  once : Bool := false
  optional : Bool := false
  byTrace : Bool := false
  last : Bool := false
  isGlobal : Bool := false
  flags : List (Val F) := []
  addresses : List (Val F) := []
  options : List (Val F) := []
  headers : List (Val F) := []
  mailboxId : Option (Val F) := none
  specialUse : Option (Val F) := none
  fcc : Option (Val F) := none
  subject : Option (Val F) := none
  sender : Option (Val F) := none
  handle : Option (Val F) := none
  message : Option (Val F) := none
  importance : Option (Val F) := none
  period : Period := .default
  dsn : Dsn := .default
  ret : Ret := .default
  byMode : ByMode := .default
  rlimit : Option Nat := none
  alimit : Option (Val F) := none
deriving DecidableEq

/-- One round of the loop: `src/compiler/grammar/actions/action_fileinto.rs:43-95`, `src/compiler/grammar/actions/action_redirect.rs:138-254`, `src/compiler/grammar/actions/action_include.rs:59-83`,
`src/compiler/grammar/actions/action_vacation.rs:114-200`, `src/compiler/grammar/actions/action_notify.rs:63-144`, `src/compiler/grammar/actions/action_mime.rs:98-118, 134-150`, `src/compiler/grammar/actions/action_editheader.rs:67-102`. -/
def Vars.set (v : Vars F) (p : Word × Arg F) : Vars F :=
  match p.1, p.2 with
  | .Copy, _ => { v with copy := true }
  | .Create, _ => { v with create := true }
  | .List, _ => { v with list := true }
  | .Mime, _ => { v with mime := true }
  | .Once, _ => { v with once := true }
  | .Optional, _ => { v with optional := true }
  | .ByTrace, _ => { v with byTrace := true }
  | .Last, _ => { v with last := true }
  | .Personal, _ => { v with isGlobal := false }
  | .Global, _ => { v with isGlobal := true }
  | .Flags, .vals vs => { v with flags := vs }
  | .Addresses, .vals vs => { v with addresses := vs }
  | .Options, .vals vs => { v with options := vs }
  | .Headers, .vals vs => { v with headers := vs }
  | .MailboxId, .val x => { v with mailboxId := some x }
  | .SpecialUse, .val x => { v with specialUse := some x }
  | .Fcc, .val x => { v with fcc := some x }
  | .Subject, .val x => { v with subject := some x }
  | .From, .val x => { v with sender := some x }
  | .Handle, .val x => { v with handle := some x }
  | .Message, .val x => { v with message := some x }
  | .Importance, .val x => { v with importance := some x }
  | .Days, .num n => { v with period := .days n }
  | .Seconds, .num n => { v with period := .seconds n }
  | .Notify, .text s => { v with dsn := (readDsn s).getD v.dsn }
  | .Ret, .text s => { v with ret := (readRet s).getD v.ret }
  | .ByMode, .text s => { v with byMode := (readMode s).getD v.byMode }
  | .ByTimeRelative, .num n => { v with rlimit := some n }
  | .ByTimeAbsolute, .val x => { v with alimit := some x }
  | _, _ => v

/-- For `FileInto.of`, `src/compiler/grammar/actions/action_fileinto.rs:34-107`. -/
def varsOf (g : Got F) : Vars F := g.tags.foldl Vars.set {}

/-- `FileInto`, `src/compiler/grammar/actions/action_fileinto.rs:25-32`. -/
structure FileInto (F : Type) where
  folder : Val F
  copy : Bool
  create : Bool
  flags : List (Val F)
  mailboxId : Option (Val F)
  specialUse : Option (Val F)

/-- `parse_fileinto`, `src/compiler/grammar/actions/action_fileinto.rs:34-107`. -/
def FileInto.of (g : Got F) : Option (FileInto F) :=
  match g.pos with
  | [.val folder] =>
    let v := varsOf g
    some { folder, copy := v.copy, create := v.create, flags := v.flags, mailboxId := v.mailboxId, specialUse := v.specialUse }
  | _ => none

/-- `Redirect`, `src/compiler/grammar/actions/action_redirect.rs:25-32`. -/
structure Redirect (F : Type) where
  address : Val F
  copy : Bool
  dsn : Dsn
  ret : Ret
  byTime : ByTime (Val F)
  list : Bool

/-- `parse_redirect`, `src/compiler/grammar/actions/action_redirect.rs:128-278`. -/
def Redirect.of (g : Got F) : Option (Redirect F) :=
  match g.pos with
  | [.val address] =>
    let v := varsOf g
    let byTime :=
      match v.alimit, v.rlimit with
      | some a, _ => .absolute a v.byMode v.byTrace
      | none, some r => .relative r v.byMode v.byTrace
      | none, none => .none
    some { address, copy := v.copy, dsn := v.dsn, ret := v.ret, byTime, list := v.list }
  | _ => none

/-- `Include`, `src/compiler/grammar/actions/action_include.rs:30-35`. -/
structure Include (F : Type) where
  isGlobal : Bool
  once : Bool
  optional : Bool
  value : Val F

/-- `parse_include`, `src/compiler/grammar/actions/action_include.rs:53-92`. -/
def Include.of (g : Got F) : Option (Include F) :=
  match g.pos with
  | [.val value] =>
    let v := varsOf g
    some { isGlobal := v.isGlobal, once := v.once, optional := v.optional, value }
  | _ => none

/-- `FileCarbonCopy`, `src/lib.rs:260-266`. -/
structure Fcc (F : Type) where
  mailbox : Val F
  create : Bool
  flags : List (Val F)
  specialUse : Option (Val F)
  mailboxId : Option (Val F)

/-- For `Vacation.of`, `src/compiler/grammar/actions/action_vacation.rs:98-238`. -/
def Vars.carbonCopy (v : Vars F) : Option (Fcc F) :=
  v.fcc.map fun m => { mailbox := m, create := v.create, flags := v.flags, specialUse := v.specialUse, mailboxId := v.mailboxId }

/-- `Vacation` and `TestVacation`, `src/compiler/grammar/actions/action_vacation.rs:29-35, 46-51`. -/
structure Vacation (F : Type) where
  /-- of the test -/
  period : Period
  handle : Option (Val F)
  testReason : Val F
  addresses : List (Val F)
  /-- of the action -/
  reason : Val F
  subject : Option (Val F)
  sender : Option (Val F)
  mime : Bool
  fcc : Option (Fcc F)

/-- `parse_vacation`, `src/compiler/grammar/actions/action_vacation.rs:98-238`. -/
def Vacation.of (g : Got F) : Option (Vacation F) :=
  match g.pos with
  | [.val reason] =>
    let v := varsOf g
    some { period := v.period, handle := v.handle, testReason := reason, addresses := v.addresses, reason,
           subject := v.subject, sender := v.sender, mime := v.mime, fcc := v.carbonCopy }
  | _ => none

/-- `Notify`, `src/compiler/grammar/actions/action_notify.rs:40-47`. -/
structure Notify (F : Type) where
  method : Val F
  sender : Option (Val F)
  importance : Option (Val F)
  options : List (Val F)
  message : Option (Val F)
  fcc : Option (Fcc F)

/-- `parse_notify`, `src/compiler/grammar/actions/action_notify.rs:50-173`. -/
def Notify.of (g : Got F) : Option (Notify F) :=
  match g.pos with
  | [.val method] =>
    let v := varsOf g
    some { method, sender := v.sender, importance := v.importance, options := v.options, message := v.message, fcc := v.carbonCopy }
  | _ => none

/-- `Replace`, `src/compiler/grammar/actions/action_mime.rs:37-42`. -/
structure Replace (F : Type) where
  subject : Option (Val F)
  sender : Option (Val F)
  replacement : Val F
  mime : Bool

/-- `parse_replace`, `src/compiler/grammar/actions/action_mime.rs:92-127`. -/
def Replace.of (g : Got F) : Option (Replace F) :=
  match g.pos with
  | [.val replacement] =>
    let v := varsOf g
    some { subject := v.subject, sender := v.sender, replacement, mime := v.mime }
  | _ => none

/-- `Enclose`, `src/compiler/grammar/actions/action_mime.rs:53-57`. -/
structure Enclose (F : Type) where
  subject : Option (Val F)
  headers : List (Val F)
  value : Val F

/-- `parse_enclose`, `src/compiler/grammar/actions/action_mime.rs:129-158`. -/
def Enclose.of (g : Got F) : Option (Enclose F) :=
  match g.pos with
  | [.val value] =>
    let v := varsOf g
    some { subject := v.subject, headers := v.headers, value }
  | _ => none

/-- `AddHeader`, `src/compiler/grammar/actions/action_editheader.rs:30-34`. -/
structure AddHeader (F : Type) where
  last : Bool
  name : Val F
  value : Val F

/-- `parse_addheader`, `src/compiler/grammar/actions/action_editheader.rs:62-109`. -/
def AddHeader.of (g : Got F) : Option (AddHeader F) :=
  match g.pos with
  | [.val name, .val value] => some { last := (varsOf g).last, name, value }
  | _ => none

/-! ## Tests -/

/-- The variables of the parsers of tests, and of `deleteheader`.  For `TestVars.set`, `src/compiler/grammar/tests/test_header.rs:56-156`. -/
structure TestVars (F : Type) where
  matchType : MatchType := .is
  comparator : Comparator := .asciiCaseMap
  part : AddressPart := .all
  index : Option Int := none
  last : Bool := false
  mime : Bool := false
  anyChild : Bool := false
  mimeOpts : MimeOpts F := .none
  body : BodyTransform F := .text
  subject : Bool := false
  zone : Zone := .server
  percent : Bool := false
  handle : Option (Val F) := none
  dup : DupMatch F := .messageId
  seconds : Option Nat := none
deriving DecidableEq

/-- One round of the loop: `src/compiler/grammar/tests/test_header.rs:56-156`, `src/compiler/grammar/tests/test_address.rs:51-145`, `src/compiler/grammar/tests/test_envelope.rs:48-183`,
`src/compiler/grammar/tests/test_body.rs:58-107`, `src/compiler/grammar/tests/test_date.rs:110-212, 239-290`, `src/compiler/grammar/tests/test_duplicate.rs:57-98`, `src/compiler/grammar/tests/test_exists.rs:40-76`,
`src/compiler/grammar/tests/test_string.rs:41-79`, `src/compiler/grammar/tests/test_spamtest.rs:62-104, 121-154`, `src/compiler/grammar/actions/action_editheader.rs:120-187`. -/
def TestVars.set (v : TestVars F) (p : Word × Arg F) : TestVars F :=
  match p.1, p.2 with
  | .Is, a => { v with matchType := (readMatchType .Is a).getD v.matchType }
  | .Contains, a => { v with matchType := (readMatchType .Contains a).getD v.matchType }
  | .Matches, a => { v with matchType := (readMatchType .Matches a).getD v.matchType }
  | .Value, a => { v with matchType := (readMatchType .Value a).getD v.matchType }
  | .Count, a => { v with matchType := (readMatchType .Count a).getD v.matchType }
  | .Regex, a => { v with matchType := (readMatchType .Regex a).getD v.matchType }
  | .List, a => { v with matchType := (readMatchType .List a).getD v.matchType }
  | .Comparator, .text s => { v with comparator := lookupComparator s }
  | .LocalPart, _ => { v with part := (readPart .LocalPart).getD v.part }
  | .Domain, _ => { v with part := (readPart .Domain).getD v.part }
  | .All, _ => { v with part := (readPart .All).getD v.part }
  | .User, _ => { v with part := (readPart .User).getD v.part }
  | .Detail, _ => { v with part := (readPart .Detail).getD v.part }
  | .Name, _ => { v with part := (readPart .Name).getD v.part }
  | .Index, .num n => { v with index := some n }
  | .Last, _ => { v with last := true }
  | .Mime, _ => { v with mime := true }
  | .AnyChild, _ => { v with anyChild := true }
  | .Type, a => { v with mimeOpts := (readMimeOpts .Type a).getD v.mimeOpts }
  | .Subtype, a => { v with mimeOpts := (readMimeOpts .Subtype a).getD v.mimeOpts }
  | .ContentType, a => { v with mimeOpts := (readMimeOpts .ContentType a).getD v.mimeOpts }
  | .Param, a => { v with mimeOpts := (readMimeOpts .Param a).getD v.mimeOpts }
  | .Raw, _ => { v with body := .raw }
  | .Text, _ => { v with body := .text }
  | .Content, .vals vs => { v with body := .content vs }
  | .Subject, _ => { v with subject := true }
  | .OriginalZone, _ => { v with zone := .original }
  | .Zone, .zone z => { v with zone := .time z }
  | .Percent, _ => { v with percent := true }
  | .Handle, .val x => { v with handle := some x }
  | .Header, .val x => { v with dup := .header x }
  | .UniqueId, .val x => { v with dup := .uniqueId x }
  | .Seconds, .num n => { v with seconds := some n }
  | _, _ => v

/-- For `Header.of`, `src/compiler/grammar/tests/test_header.rs:44-173`. -/
def testVarsOf (g : Got F) : TestVars F := g.tags.foldl TestVars.set {}

/-- `if index_last { index.map(|i| -i) } else { index }`, for example `src/compiler/grammar/tests/test_header.rs:168`. -/
def TestVars.signed (v : TestVars F) : Option Int := if v.last then v.index.map (- ·) else v.index

/-- The variable `zone` of `envelope` and `currentdate`, which have no `:originalzone`: `src/compiler/grammar/tests/test_envelope.rs:46, 93-101`,
`src/compiler/grammar/tests/test_date.rs:236, 269-272`. -/
def TestVars.offset (v : TestVars F) : Option Int :=
  match v.zone with
  | .time z => some z
  | _ => none

/-- `TestHeader`, `src/compiler/grammar/tests/test_header.rs:31-41`. -/
structure Header (F : Type) where
  headers : List (Val F)
  keys : List (Val F)
  matchType : MatchType
  comparator : Comparator
  index : Option Int
  mimeOpts : MimeOpts F
  anyChild : Bool

/-- `parse_test_header`, `src/compiler/grammar/tests/test_header.rs:44-173`. -/
def Header.of (g : Got F) : Option (Header F) :=
  match g.pos with
  | [.vals headers, .vals keys] =>
    let v := testVarsOf g
    some { headers, keys, matchType := v.matchType, comparator := v.comparator, index := v.signed, mimeOpts := v.mimeOpts,
           anyChild := v.anyChild }
  | _ => none

/-- `TestAddress`, `src/compiler/grammar/tests/test_address.rs:26-36`. -/
structure Address (F : Type) where
  headers : List (Val F)
  keys : List (Val F)
  part : AddressPart
  matchType : MatchType
  comparator : Comparator
  index : Option Int
  anyChild : Bool

/-- `parse_test_address`, `src/compiler/grammar/tests/test_address.rs:39-163`. -/
def Address.of (g : Got F) : Option (Address F) :=
  match g.pos with
  | [.vals headers, .vals keys] =>
    let v := testVarsOf g
    some { headers, keys, part := v.part, matchType := v.matchType, comparator := v.comparator, index := v.signed,
           anyChild := v.anyChild }
  | _ => none

/-- `TestBody`, `src/compiler/grammar/tests/test_body.rs:26-33`. -/
structure Body (F : Type) where
  keys : List (Val F)
  body : BodyTransform F
  matchType : MatchType
  comparator : Comparator
  subject : Bool

/-- `parse_test_body`, `src/compiler/grammar/tests/test_body.rs:51-120`. -/
def Body.of (g : Got F) : Option (Body F) :=
  match g.pos with
  | [.vals keys] =>
    let v := testVarsOf g
    some { keys, body := v.body, matchType := v.matchType, comparator := v.comparator, subject := v.subject }
  | _ => none

/-- `TestDate`, `src/compiler/grammar/tests/test_date.rs:26-36`. -/
structure Date (F : Type) where
  header : Val F
  keys : List (Val F)
  part : List UInt8
  matchType : MatchType
  comparator : Comparator
  index : Option Int
  zone : Zone
  anyChild : Bool

/-- `parse_test_date`, `src/compiler/grammar/tests/test_date.rs:97-229`; the date part is kept as it is written in lower case. -/
def Date.of (g : Got F) : Option (Date F) :=
  match g.pos with
  | [.val header, .text part, .vals keys] =>
    let v := testVarsOf g
    some { header, keys, part := lower part, matchType := v.matchType, comparator := v.comparator, index := v.signed,
           zone := v.zone, anyChild := v.anyChild }
  | _ => none

/-- `TestCurrentDate`, `src/compiler/grammar/tests/test_date.rs:47-54`. -/
structure CurrentDate (F : Type) where
  keys : List (Val F)
  part : List UInt8
  matchType : MatchType
  comparator : Comparator
  zone : Option Int

/-- `parse_test_currentdate`, `src/compiler/grammar/tests/test_date.rs:232-301`; its variable `zone` is an option. -/
def CurrentDate.of (g : Got F) : Option (CurrentDate F) :=
  match g.pos with
  | [.text part, .vals keys] =>
    let v := testVarsOf g
    some { keys, part := lower part, matchType := v.matchType, comparator := v.comparator, zone := v.offset }
  | _ => none

/-- `TestEnvelope`, `src/compiler/grammar/tests/test_envelope.rs:29-37`. -/
structure Envelope (F : Type) where
  fields : List (List UInt8)
  keys : List (Val F)
  part : AddressPart
  matchType : MatchType
  comparator : Comparator
  zone : Option Int

/-- A name is added unless the list has it, `src/compiler/grammar/tests/test_envelope.rs:130-132`. -/
def addName (l : List (List UInt8)) (s : List UInt8) : List (List UInt8) := if lower s ∈ l then l else l ++ [lower s]

/-- `parse_test_envelope`, `src/compiler/grammar/tests/test_envelope.rs:40-197`; an `Envelope` is the name in lower case. -/
def Envelope.of (g : Got F) : Option (Envelope F) :=
  match g.pos with
  | [.texts names, .vals keys] =>
    let v := testVarsOf g
    some { fields := names.foldl addName [], keys, part := v.part, matchType := v.matchType, comparator := v.comparator,
           zone := v.offset }
  | _ => none

/-- `TestExists`, `src/compiler/grammar/tests/test_exists.rs:27-31`. -/
structure Exists (F : Type) where
  headers : List (Val F)
  anyChild : Bool

/-- `parse_test_exists`, `src/compiler/grammar/tests/test_exists.rs:34-87`. -/
def Exists.of (g : Got F) : Option (Exists F) :=
  match g.pos with
  | [.vals headers] => some { headers, anyChild := (testVarsOf g).anyChild }
  | _ => none

/-- `DeleteHeader`, `src/compiler/grammar/actions/action_editheader.rs:52-59`. -/
structure DeleteHeader (F : Type) where
  name : Val F
  patterns : List (Val F)
  matchType : MatchType
  comparator : Comparator
  index : Option Int
  anyChild : Bool

/-- `parse_deleteheader`, `src/compiler/grammar/actions/action_editheader.rs:111-212`. -/
def DeleteHeader.of (g : Got F) : Option (DeleteHeader F) :=
  let v := testVarsOf g
  let make (name : Val F) (patterns : List (Val F)) : DeleteHeader F :=
    { name, patterns, matchType := v.matchType, comparator := v.comparator, index := v.signed, anyChild := v.anyChild }
  match g.pos with
  | [.val name] => some (make name [])
  | [.val name, .vals patterns] => some (make name patterns)
  | _ => none

/-- `TestString`, `src/compiler/grammar/tests/test_string.rs:26-32`; also made by `environment`. -/
structure StringTest (F : Type) where
  source : List (Val F)
  keys : List (Val F)
  matchType : MatchType
  comparator : Comparator

/-- `parse_test_string`, `src/compiler/grammar/tests/test_string.rs:35-90`. -/
def StringTest.of (g : Got F) : Option (StringTest F) :=
  match g.pos with
  | [.vals source, .vals keys] =>
    let v := testVarsOf g
    some { source, keys, matchType := v.matchType, comparator := v.comparator }
  | _ => none

/-- `TestSpamTest`, `src/compiler/grammar/tests/test_spamtest.rs:31-37`. -/
structure SpamTest (F : Type) where
  value : Val F
  matchType : MatchType
  comparator : Comparator
  percent : Bool

/-- `parse_test_spamtest`, `src/compiler/grammar/tests/test_spamtest.rs:56-114`. -/
def SpamTest.of (g : Got F) : Option (SpamTest F) :=
  match g.pos with
  | [.val value] =>
    let v := testVarsOf g
    some { value, matchType := v.matchType, comparator := v.comparator, percent := v.percent }
  | _ => none

/-- `TestMetadata` of a mailbox, `test_mailbox.rs:69-75`, and `TestNotifyMethodCapability`, `src/compiler/grammar/tests/test_notify.rs:26-33`. -/
structure TwoNames (F : Type) where
  first : Val F
  second : Val F
  keys : List (Val F)
  matchType : MatchType
  comparator : Comparator

/-- `parse_test_metadata`, `test_mailbox.rs:108-168`: mailbox and annotation; `parse_test_notify_method_capability`,
`src/compiler/grammar/tests/test_notify.rs:57-115`: method and capability. -/
def TwoNames.of (g : Got F) : Option (TwoNames F) :=
  match g.pos with
  | [.val first, .val second, .vals keys] =>
    let v := testVarsOf g
    some { first, second, keys, matchType := v.matchType, comparator := v.comparator }
  | _ => none

/-- `TestDuplicate`, `src/compiler/grammar/tests/test_duplicate.rs:27-33`. -/
structure Duplicate (F : Type) where
  handle : Option (Val F)
  dup : DupMatch F
  seconds : Option Nat
  last : Bool

/-- `parse_test_duplicate`, `src/compiler/grammar/tests/test_duplicate.rs:51-108`. -/
def Duplicate.of (g : Got F) : Duplicate F :=
  let v := testVarsOf g
  { handle := v.handle, dup := v.dup, seconds := v.seconds, last := v.last }

/-- `TestHasFlag`, `src/compiler/grammar/tests/test_hasflag.rs:32-38`. -/
structure HasFlag (F : Type) where
  vars : List (Val F)
  flags : List (Val F)
  matchType : MatchType
  comparator : Comparator

/-- `parse_test_hasflag`, `src/compiler/grammar/tests/test_hasflag.rs:41-147`; the variables are still their names. -/
def HasFlag.of (g : Got F) : Option (HasFlag F) :=
  let v := testVarsOf g
  match g.pos with
  | [.vals flags] => some { vars := [], flags, matchType := v.matchType, comparator := v.comparator }
  | [.vals vars, .vals flags] => some { vars, flags, matchType := v.matchType, comparator := v.comparator }
  | _ => none

/-- `TestMetadata` of the server, `test_mailbox.rs:69-75`. -/
structure OneName (F : Type) where
  name : Val F
  keys : List (Val F)
  matchType : MatchType
  comparator : Comparator

/-- `parse_test_servermetadata`, `test_mailbox.rs:170-225`. -/
def OneName.of (g : Got F) : Option (OneName F) :=
  match g.pos with
  | [.val name, .vals keys] =>
    let v := testVarsOf g
    some { name, keys, matchType := v.matchType, comparator := v.comparator }
  | _ => none

end Sieve.Fields
