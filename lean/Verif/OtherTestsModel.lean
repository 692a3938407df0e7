import Verif.AddressModel
import Verif.TestsModel

/-!
# The remaining tests

Model of `exists`, `size`, `duplicate`, `spamtest`, `virustest`, `metadata`, `metadataexists`,
`valid_notify_method`, `notify_method_capability`, `valid_ext_list`, `ihave`, `date` and `currentdate`
(`src/runtime/tests/test_*.rs`, `src/runtime/tests/mod.rs`).

As in `TestsModel` keys and other arguments are evaluated already, and a search that calls a visitor
on one header after another is a search in the list of these headers.  A header name that
`HeaderName::parse` rejects is `none`.  What `mail_parser` computes (message ids, dates, time zones) is
a parameter.
-/

namespace Sieve.Tests
open Sieve.Expr (Val Flt)

variable {F N V D : Type}

/-! ## exists and size -/

section
variable [DecidableEq N]

/-- The loop over the parts, `src/runtime/tests/test_exists.rs:20-33`; `seen` is `header_exists`. -/
def existsGo (names : List N) : List (List N) → List Bool → Bool
  | [], _ => false
  | hs :: rest, seen =>
    let seen := List.zipWith (fun b n => b || hs.any (· == n)) seen names
    if seen.all id then true else existsGo names rest seen

/-- `TestExists::exec`, `src/runtime/tests/test_exists.rs:12-36`; `none` is a search that does not end. -/
def existsTest (parts : List (Mime.Part N V)) (part : Nat) (given : List (Option N)) (anychild isNot : Bool)
    (fuel : Nat) : Option Bool :=
  let names := given.filterMap id
  (Mime.visit parts anychild fuel [part] []).map fun ids =>
    existsGo names (ids.filterMap fun i => parts[i]?.map fun p => p.headers.map (·.name))
      (List.replicate names.length false) ^^ isNot
end

/-- `TestSize::exec`, `src/runtime/tests/test_size.rs:11-21`. -/
def sizeTest (over : Bool) (limit size : Nat) (isNot : Bool) : Bool :=
  (if over then decide (limit < size) else decide (size < limit)) ^^ isNot

/-! ## duplicate -/

/-- `DupMatch`, `src/compiler/grammar/tests/test_duplicate.rs:44-48`. -/
inductive DupMatch (F N : Type) where
  | header (name : Option N)
  | uniqueId (v : Val F)
  | default

/-- The event `DuplicateId`, `src/lib.rs:197-201`. -/
structure DupQuery where
  id : Str
  expiry : Nat
  last : Bool
deriving DecidableEq

/-- The results of `duplicate`: a truth value, or a question whose answer is negated if `isNot`.
For `duplicateTest`, `src/runtime/tests/test_duplicate.rs:17-73`. -/
inductive DupResult where
  | bool (b : Bool)
  | ask (q : DupQuery) (isNot : Bool)
deriving DecidableEq

/-- The id in a header field, `src/runtime/tests/test_duplicate.rs:24-48`; `parseId` is `MessageStream::parse_id` if it returns a
text. -/
def fieldId (utf8 : Str → List UInt8) (parseId : List UInt8 → Option Str) (f : Field) : Option Str :=
  (if !f.added then parseId f.raw
    else match f.parsed with
      | .text t => parseId (utf8 (t ++ ['\n']))
      | _ => none).filter fun i => !i.isEmpty

/-- `src/runtime/tests/test_duplicate.rs:19-56`: the id to be tracked.  `found` are the header fields passed to the visitor of
`find_headers`, `messageId` is `message.message_id()`. -/
def trackedId (x : Ext F) (parseId : List UInt8 → Option Str) (messageId : Option Str) (found : List Field) :
    DupMatch F N → Str
  | .header none => []
  | .header (some _) =>
    match found.findSome? (fieldId x.utf8 parseId) with
    | some i => i
    | none => []
  | .uniqueId v => text x.flt v
  | .default =>
    match messageId with
    | some i => i
    | none => []

/-- `TestDuplicate::exec`, `src/runtime/tests/test_duplicate.rs:17-73`. -/
def duplicateTest (x : Ext F) (parseId : List UInt8 → Option Str) (messageId : Option Str) (found : List Field)
    (m : DupMatch F N) (handle : Option (Val F)) (seconds : Option Nat) (deflt : Nat) (last isNot : Bool) : DupResult :=
  let i := trackedId x parseId messageId found m
  if i.isEmpty then .bool (false ^^ isNot)
  else
    .ask ⟨match handle with
      | some h => text x.flt h ++ i
      | none => i,
      match seconds with
      | some s => s
      | none => deflt, last⟩ isNot

/-- `TestDuplicate::exec` on a message: the fields called `name` in the current part and everything inside it.
See `runtime/tests/test_duplicate.rs:17-73`. -/
def duplicateExec [DecidableEq N] (x : Ext F) (parseId : List UInt8 → Option Str) (messageId : Option Str)
    (parts : List (Mime.Part N Field)) (part : Nat) (fuel : Nat) (m : DupMatch F N) (handle : Option (Val F))
    (seconds : Option Nat) (deflt : Nat) (last isNot : Bool) : Option DupResult :=
  match m with
  | .header (some n) =>
    (Mime.findHeaders parts part [n] none true fuel).map fun found =>
      duplicateTest x parseId messageId (found.map (·.1.value)) m handle seconds deflt last isNot
  | m => some (duplicateTest x parseId messageId [] m handle seconds deflt last isNot)

/-! ## spamtest and virustest -/

/-- `SpamStatus`, `src/lib.rs:304-309`. -/
inductive Spam (F : Type) where
  | unknown | ham | maybeSpam (pct : F) | spam

/-- `VirusStatus`, `src/lib.rs:312-319`. -/
inductive Virus where
  | unknown | clean | replaced | cured | maybeVirus | virus
deriving DecidableEq

/-- More of `f64`.  For `Spam.number`, `src/runtime/tests/test_spamtest.rs:123-130`. -/
structure Flt2 (F : Type) where
  /-- `ceil` -/
  ceil : F → F
  /-- `as i64` -/
  toInt : F → Int
  /-- the literal `1.1` -/
  onePointOne : F

/-- `clamp`.  For `Spam.number`, `src/runtime/tests/test_spamtest.rs:123-130`. -/
def clamp (n lo hi : Int) : Int := if n < lo then lo else if hi < n then hi else n

/-- `SpamStatus::from_number`, `src/runtime/tests/test_spamtest.rs:114-121`. -/
def Spam.ofNumber (A : Flt F) (n : Nat) : Spam F :=
  if n = 1 then .ham
  else if 2 ≤ n ∧ n ≤ 9 then .maybeSpam (A.div (A.ofInt n) (A.ofInt 10))
  else if n = 10 then .spam
  else .unknown

/-- `SpamStatus::as_number`, `src/runtime/tests/test_spamtest.rs:123-130`. -/
def Spam.number (A : Flt F) (B : Flt2 F) : Spam F → Int
  | .unknown => 0
  | .ham => 1
  | .maybeSpam p => clamp (B.toInt (A.mul p (A.ofInt 10))) 2 9
  | .spam => 10

/-- `SpamStatus::as_percentage`, `src/runtime/tests/test_spamtest.rs:132-138`. -/
def Spam.percentage (A : Flt F) (B : Flt2 F) : Spam F → Int
  | .unknown => 0
  | .ham => 0
  | .maybeSpam p => clamp (B.toInt (B.ceil (A.mul p (A.ofInt 100)))) 1 100
  | .spam => 100

/-- `VirusStatus::from_number`, `src/runtime/tests/test_spamtest.rs:142-151`. -/
def Virus.ofNumber (n : Nat) : Virus :=
  match n with
  | 1 => .clean
  | 2 => .replaced
  | 3 => .cured
  | 4 => .maybeVirus
  | 5 => .virus
  | _ => .unknown

/-- `VirusStatus::as_number`, `src/runtime/tests/test_spamtest.rs:153-162`. -/
def Virus.number : Virus → Int
  | .unknown => 0
  | .clean => 1
  | .replaced => 2
  | .cured => 3
  | .maybeVirus => 4
  | .virus => 5

/-- The common part of the two tests, `src/runtime/tests/test_spamtest.rs:26-62` and `71-107`. -/
def statusTest (x : Ext F) (B : Flt2 F) (known : Bool) (status : Int) (c : Comparator) (m : Match) (value : Val F)
    (isNot : Bool) : Outcome :=
  match m with
  | .count r =>
    ⟨.bool (r.num x.flt (.flt (if known then B.onePointOne else x.flt.zero)) (number x value) ^^ isNot), []⟩
  | m =>
    let s := attempt x c m (.val (.int status)) (.val value) []
    ⟨.bool (s.2 ^^ isNot), s.1⟩

/-- `matches!(&ctx.spam_status, SpamStatus::Unknown)`, negated.  For `spamTest`, `src/runtime/tests/test_spamtest.rs:21-64`. -/
def Spam.known : Spam F → Bool
  | .unknown => false
  | _ => true

/-- `TestSpamTest::exec`, `src/runtime/tests/test_spamtest.rs:21-64`. -/
def spamTest (x : Ext F) (B : Flt2 F) (s : Spam F) (percent : Bool) (c : Comparator) (m : Match) (value : Val F)
    (isNot : Bool) : Outcome :=
  statusTest x B s.known (if percent then s.percentage x.flt B else s.number x.flt B) c m value isNot

/-- `TestVirusTest::exec`, `src/runtime/tests/test_spamtest.rs:70-110`. -/
def virusTest (x : Ext F) (B : Flt2 F) (s : Virus) (c : Comparator) (m : Match) (value : Val F) (isNot : Bool) : Outcome :=
  statusTest x B (s ≠ .unknown) s.number c m value isNot

/-! ## metadata -/

/-- `Metadata`, `src/lib.rs:177-180`. -/
inductive Meta where
  | server (annotation : Str)
  | mailbox (name annotation : Str)
deriving DecidableEq

/-- The comparison of `test_metadata.rs:36-52`. -/
def Meta.same (x : Ext F) : Meta → Meta → Bool
  | .server a, .server b => x.eqIgnoreCase a b
  | .mailbox a c, .mailbox b d => a == b && x.eqIgnoreCase c d
  | _, _ => false

/-- `TestMetadata::exec`, `test_metadata.rs:21-104`; `stored` are the metadata of the context followed by those of the
runtime. -/
def metadataTest (x : Ext F) (one : F) (stored : List (Meta × Str)) (wanted : Meta) (c : Comparator) (m : Match)
    (keys : List (Val F)) (isNot : Bool) : Outcome :=
  match stored.find? fun e => e.1.same x wanted with
  | none => ⟨.bool (false ^^ isNot), []⟩
  | some (_, value) =>
    match m with
    | .count r => ⟨.bool ((keys.any fun k => r.num x.flt (.flt one) (number x k)) ^^ isNot), []⟩
    | m =>
      let s := each (fun k => attempt x c m (.text value) (.val k)) keys []
      ⟨.bool (s.2 ^^ isNot), s.1⟩

/-- The loop of `TestMetadataExists::exec`, `test_metadata.rs:115-129`. -/
def metadataExistsGo (x : Ext F) (mailbox : Option Str) : List (Meta × Str) → List Str → Bool
  | [], _ => false
  | (md, _) :: rest, annotations =>
    let annotations := match md, mailbox with
      | .server a, none => annotations.filter fun b => !x.eqIgnoreCase b a
      | .mailbox n a, some mb => if n == mb then annotations.filter fun b => !x.eqIgnoreCase b a else annotations
      | _, _ => annotations
    if annotations.isEmpty then true else metadataExistsGo x mailbox rest annotations

/-- `TestMetadataExists::exec`, `test_metadata.rs:107-132`. -/
def metadataExistsTest (x : Ext F) (stored : List (Meta × Str)) (mailbox : Option Str) (annotations : List Str)
    (isNot : Bool) : Bool :=
  metadataExistsGo x mailbox stored annotations ^^ isNot

/-! ## What the host supports -/

/-- `parse_uri`, `src/runtime/actions/action_notify.rs:349-357`: the parts before and after the first colon, the second not empty. -/
def parseUri : List UInt8 → Option (List UInt8 × List UInt8)
  | [] => none
  | c :: cs =>
    if c = 58 then (if cs.isEmpty then none else some ([], cs))
    else (parseUri cs).map fun (s, u) => (c :: s, u)

/-- For `validateUri`, `src/runtime/actions/action_notify.rs:337-347`. -/
def ascii' (s : String) : List UInt8 := s.toList.map fun c => UInt8.ofNat c.toNat

/-- `validate_uri`, `src/runtime/actions/action_notify.rs:337-347`. -/
def validateUri (y : Address.MExt) (uri : List UInt8) : Option (List UInt8) :=
  match parseUri uri with
  | none => none
  | some (scheme, rest) =>
    if Address.eqIgnoreCase scheme (ascii' "mailto") then (Address.parseMailto y rest).map fun _ => scheme
    else if scheme ∈ [ascii' "xmpp", ascii' "tel", ascii' "http", ascii' "https"] then some scheme
    else none

/-- The condition of `src/runtime/tests/test_notify.rs:29-38` and `54-61`; `supported` is `valid_notification_uris`. -/
def supportedUri (y : Address.MExt) (supported : List (List UInt8)) (uri : List UInt8) : Bool :=
  match validateUri y uri with
  | some scheme => supported.contains scheme || supported.contains uri
  | none => false

/-- `TestValidNotifyMethod::exec`, `src/runtime/tests/test_notify.rs:24-44`. -/
def validNotifyTest (y : Address.MExt) (supported uris : List (List UInt8)) (isNot : Bool) : Bool :=
  decide ((uris.filter (supportedUri y supported)).length = uris.length) ^^ isNot

/-- `TestNotifyMethodCapability::exec`, `src/runtime/tests/test_notify.rs:47-100`. -/
def notifyCapabilityTest (x : Ext F) (one : F) (y : Address.MExt) (supported : List (List UInt8)) (uri : List UInt8)
    (capability : Str) (c : Comparator) (m : Match) (keys : List (Val F)) (isNot : Bool) : Bool :=
  if !x.eqIgnoreCase capability "online".toList || !supportedUri y supported uri then false ^^ isNot
  else
    match m with
    | .count r => (keys.any fun k => r.num x.flt (.flt one) (number x k)) ^^ isNot
    | .matches _ => (keys.any fun k => (attempt x c (.matches 0) (.text "maybe".toList) (.val k) []).2) ^^ isNot
    | .regex _ => (keys.any fun k => (attempt x c (.regex 0) (.text "maybe".toList) (.val k) []).2) ^^ isNot
    | m => (keys.any fun k => (attempt x c m (.text "maybe".toList) (.val k) []).2) ^^ isNot

/-- `TestValidExtList::exec`, `src/runtime/tests/test_extlists.rs:12-27`. -/
def validListTest (supported names : List Str) (isNot : Bool) : Bool :=
  decide ((names.filter supported.contains).length = names.length) ^^ isNot

/-- `Test::Ihave`, `src/runtime/tests/mod.rs:56-61`; `never` are `variables` and `encoded-character`. -/
def ihaveTest {K : Type} [DecidableEq K] (never allowed caps : List K) (isNot : Bool) : Bool :=
  (caps.all fun c => !never.contains c && allowed.contains c) ^^ isNot

/-! ## date and currentdate -/

/-- `mail_parser`'s `DateTime`.  For `DatePart.eval`, `src/runtime/tests/test_date.rs:257-282`. -/
structure DateTime where
  year : Nat
  month : Nat
  day : Nat
  hour : Nat
  minute : Nat
  second : Nat
  beforeGmt : Bool
  tzHour : Nat
  tzMinute : Nat
deriving DecidableEq

/-- What `mail_parser` does with dates.  For `DatePart.eval`, `src/runtime/tests/test_date.rs:257-282`. -/
structure DateExt where
  /-- `HeaderValue::DateTime` of a field that was parsed as a date -/
  parsed : Field → Option DateTime
  /-- `MessageStream::parse_date` -/
  parse : List UInt8 → Option DateTime
  valid : DateTime → Bool
  /-- `julian_day` -/
  julian : DateTime → Int
  rfc3339 : DateTime → Str
  rfc822 : DateTime → Str
  weekday : DateTime → Nat
  toZone : DateTime → Int → DateTime
  /-- `from_timestamp(to_timestamp())` -/
  utc : DateTime → DateTime
  ofTime : Int → DateTime

/-- `DatePart`, `src/compiler/grammar/tests/test_date.rs:80-94`. -/
inductive DatePart where
  | year | month | day | date | julian | hour | minute | second | time | iso8601 | std11 | zone | weekday
deriving DecidableEq

/-- `Zone`.  For `Zone.eval`, `src/runtime/tests/test_date.rs:285-292`. -/
inductive Zone where
  | time (tz : Int) | original | local

/-- For `padded`, `src/runtime/tests/test_date.rs:257-282`. -/
def digit (n : Nat) : Char := Char.ofNat (48 + n % 10)

/-- The decimal notation.  For `padded`, `src/runtime/tests/test_date.rs:257-282`. -/
def decimal (n : Nat) : Str := if n < 10 then [digit n] else decimal (n / 10) ++ [digit n]
termination_by n

/-- `{:02}` and `{:04}`. For the parts of dates, `src/runtime/tests/test_date.rs:257-282`. -/
def padded (w n : Nat) : Str := List.replicate (w - (decimal n).length) '0' ++ decimal n

/-- `to_string` of an `i64`.  For `DatePart.eval`, `src/runtime/tests/test_date.rs:257-282`. -/
def signed (n : Int) : Str := if n < 0 then '-' :: decimal n.natAbs else decimal n.natAbs

/-- `DatePart::eval`, `src/runtime/tests/test_date.rs:257-282`.  `julian_day` as a floating point number less 2400000.5, as an integer, which
is exact for the numbers that occur, is a division by two that rounds towards zero. -/
def DatePart.eval (e : DateExt) (d : DateTime) : DatePart → Str
  | .year => padded 4 d.year
  | .month => padded 2 d.month
  | .day => padded 2 d.day
  | .date => padded 4 d.year ++ '-' :: (padded 2 d.month ++ '-' :: padded 2 d.day)
  | .julian => signed (Int.tdiv (2 * e.julian d - 4800001) 2)
  | .hour => padded 2 d.hour
  | .minute => padded 2 d.minute
  | .second => padded 2 d.second
  | .time => padded 2 d.hour ++ ':' :: (padded 2 d.minute ++ ':' :: padded 2 d.second)
  | .iso8601 => e.rfc3339 d
  | .std11 => e.rfc822 d
  | .zone => (if d.beforeGmt && (decide (0 < d.tzHour) || decide (0 < d.tzMinute)) then '-' else '+') ::
      (padded 2 d.tzHour ++ padded 2 d.tzMinute)
  | .weekday => decimal (e.weekday d)

/-- `Zone::eval`, `src/runtime/tests/test_date.rs:285-292`. -/
def Zone.eval (e : DateExt) (d : DateTime) : Zone → DateTime
  | .time tz => e.toZone d tz
  | .original => d
  | .local => e.utc d

/-- `find_dates`, `src/runtime/tests/test_date.rs:228-253`. -/
def findDate (e : DateExt) (utf8 : Str → List UInt8) (f : Field) : Option DateTime :=
  match e.parsed f with
  | some d => if e.valid d then some d else none
  | none =>
    let r := if !f.added then e.parse f.raw
      else match f.parsed with
        | .text t => e.parse (utf8 (t ++ ['\n']))
        | _ => none
    r.filter e.valid

/-- The comparisons of the two tests: `:regex` is treated as `:matches` (`src/runtime/tests/test_date.rs:118-123, 192-197`). -/
def dateMatch : Match → Match
  | .regex cp => .matches cp
  | m => m

/-- `TestDate::exec`, `src/runtime/tests/test_date.rs:25-140`; `found` are the header fields passed to the visitor of `find_headers`. -/
def dateTest (x : Ext F) (e : DateExt) (isNot : Bool) (c : Comparator) (m : Match) (zone : Zone) (part : DatePart)
    (found : List (Mime.Header N Field)) (keys : List (Val F)) : Outcome :=
  let dates := found.filterMap fun h => findDate e x.utf8 h.value
  let vals := dates.map fun d => part.eval e (zone.eval e d)
  match m with
  | .count r => ⟨.bool (countTest x r dates.length keys ^^ isNot), []⟩
  | .list => listTest x isNot c vals keys
  | m =>
    let s := search x c (dateMatch m) vals keys
    ⟨.bool (s.2 ^^ isNot), s.1⟩

/-- `TestDate::exec` on a message; a header name that is none makes the test false.
See `runtime/tests/test_date.rs:25-212`. -/
def dateExec [DecidableEq N] (x : Ext F) (e : DateExt) (isNot : Bool) (c : Comparator) (m : Match) (zone : Zone)
    (dp : DatePart) (parts : List (Mime.Part N Field)) (part : Nat) (name : Option N) (index : Option Int)
    (anychild : Bool) (fuel : Nat) (keys : List (Val F)) : Option Outcome :=
  match name with
  | none => some ⟨.bool (false ^^ isNot), []⟩
  | some n =>
    (Mime.findHeaders parts part [n] index anychild fuel).map fun found =>
      dateTest x e isNot c m zone dp (found.map (·.1)) keys

/-- `TestCurrentDate::exec`, `src/runtime/tests/test_date.rs:147-212`. -/
def currentDateTest (x : Ext F) (one : F) (e : DateExt) (now : Int) (zone : Option Int) (part : DatePart) (isNot : Bool)
    (c : Comparator) (m : Match) (keys : List (Val F)) : Outcome :=
  let d := match zone with
    | some z => e.toZone (e.ofTime now) z
    | none => e.ofTime now
  let v := part.eval e d
  match m with
  | .count r => ⟨.bool ((keys.any fun k => r.num x.flt (.flt one) (number x k)) ^^ isNot), []⟩
  | .list =>
    if v.isEmpty then ⟨.bool (false ^^ isNot), []⟩ else ⟨.listContains (keys.map (text x.flt)) [v] c isNot, []⟩
  | m =>
    let s := each (fun k => attempt x c (dateMatch m) (.text v) (.val k)) keys []
    ⟨.bool (s.2 ^^ isNot), s.1⟩

end Sieve.Tests
