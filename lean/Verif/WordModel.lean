import Verif.LexModel

/-!
# Words and capabilities

The fixed names of the language: the words of `src/compiler/lexer/word.rs` and the capabilities (names of
extensions given to `require`) of `src/compiler/grammar/mod.rs`.  Constructors have the names of the code.
Texts are byte strings, as in `LexModel`.
-/

namespace Sieve.Args

/-- The bytes of an ASCII text.  For `lookupWord`, `src/compiler/lexer/word.rs:143`. -/
def bytes (s : String) : List UInt8 := s.toList.map (fun c => c.toNat.toUInt8)

/-- `Word`, `src/compiler/lexer/word.rs:10-141`. -/
inductive Word where
  | AddFlag | AddHeader | Address | Addresses | All | AllOf | AnyChild | AnyOf | Body | Break | ByMode
  | ByTimeAbsolute | ByTimeRelative | ByTrace | Comparator | Contains | Content | ContentType | Convert | Copy
  | Count | Create | CurrentDate | Date | Days | DeleteHeader | Detail | Discard | Domain | Duplicate | Else
  | ElsIf | Enclose | EncodeUrl | Envelope | Environment | Ereject | Error | Exists | ExtractText | False | Fcc
  | FileInto | First | Flags | ForEveryPart | From | Global | Handle | HasFlag | Header | Headers | If | Ihave
  | Importance | Include | Index | Is | Keep | Last | Length | List | LocalPart | Lower | LowerFirst
  | MailboxExists | MailboxId | MailboxIdExists | Matches | Message | Metadata | MetadataExists | Mime | Name
  | Not | Notify | NotifyMethodCapability | Once | Optional | Options | OriginalZone | Over | Param | Percent
  | Personal | QuoteRegex | QuoteWildcard | Raw | Redirect | Regex | Reject | RemoveFlag | Replace | Require
  | Ret | Return | Seconds | ServerMetadata | ServerMetadataExists | Set | SetFlag | Size | SpamTest
  | SpecialUse | SpecialUseExists | Stop | String | Subject | Subtype | Text | True | Type | Under | UniqueId
  | Upper | UpperFirst | User | Vacation | ValidExtList | ValidNotifyMethod | Value | VirusTest | Zone | Eval
  | Local | While | Let | Continue
deriving DecidableEq

/-- The table of `lookup_words`, `src/compiler/lexer/word.rs:143-275`. -/
def wordTable : List (String × Word) := [
  ("addflag", .AddFlag),
  ("addheader", .AddHeader),
  ("address", .Address),
  ("addresses", .Addresses),
  ("all", .All),
  ("allof", .AllOf),
  ("anychild", .AnyChild),
  ("anyof", .AnyOf),
  ("body", .Body),
  ("break", .Break),
  ("bymode", .ByMode),
  ("bytimeabsolute", .ByTimeAbsolute),
  ("bytimerelative", .ByTimeRelative),
  ("bytrace", .ByTrace),
  ("comparator", .Comparator),
  ("contains", .Contains),
  ("content", .Content),
  ("contenttype", .ContentType),
  ("convert", .Convert),
  ("copy", .Copy),
  ("count", .Count),
  ("create", .Create),
  ("currentdate", .CurrentDate),
  ("date", .Date),
  ("days", .Days),
  ("deleteheader", .DeleteHeader),
  ("detail", .Detail),
  ("discard", .Discard),
  ("domain", .Domain),
  ("duplicate", .Duplicate),
  ("else", .Else),
  ("elsif", .ElsIf),
  ("enclose", .Enclose),
  ("encodeurl", .EncodeUrl),
  ("envelope", .Envelope),
  ("environment", .Environment),
  ("ereject", .Ereject),
  ("error", .Error),
  ("exists", .Exists),
  ("extracttext", .ExtractText),
  ("false", .False),
  ("fcc", .Fcc),
  ("fileinto", .FileInto),
  ("first", .First),
  ("flags", .Flags),
  ("foreverypart", .ForEveryPart),
  ("from", .From),
  ("global", .Global),
  ("handle", .Handle),
  ("hasflag", .HasFlag),
  ("header", .Header),
  ("headers", .Headers),
  ("if", .If),
  ("ihave", .Ihave),
  ("importance", .Importance),
  ("include", .Include),
  ("index", .Index),
  ("is", .Is),
  ("keep", .Keep),
  ("last", .Last),
  ("length", .Length),
  ("list", .List),
  ("localpart", .LocalPart),
  ("lower", .Lower),
  ("lowerfirst", .LowerFirst),
  ("mailboxexists", .MailboxExists),
  ("mailboxid", .MailboxId),
  ("mailboxidexists", .MailboxIdExists),
  ("matches", .Matches),
  ("message", .Message),
  ("metadata", .Metadata),
  ("metadataexists", .MetadataExists),
  ("mime", .Mime),
  ("name", .Name),
  ("not", .Not),
  ("notify", .Notify),
  ("notify_method_capability", .NotifyMethodCapability),
  ("once", .Once),
  ("optional", .Optional),
  ("options", .Options),
  ("originalzone", .OriginalZone),
  ("over", .Over),
  ("param", .Param),
  ("percent", .Percent),
  ("personal", .Personal),
  ("quoteregex", .QuoteRegex),
  ("quotewildcard", .QuoteWildcard),
  ("raw", .Raw),
  ("redirect", .Redirect),
  ("regex", .Regex),
  ("reject", .Reject),
  ("removeflag", .RemoveFlag),
  ("replace", .Replace),
  ("require", .Require),
  ("ret", .Ret),
  ("return", .Return),
  ("seconds", .Seconds),
  ("servermetadata", .ServerMetadata),
  ("servermetadataexists", .ServerMetadataExists),
  ("set", .Set),
  ("setflag", .SetFlag),
  ("size", .Size),
  ("spamtest", .SpamTest),
  ("specialuse", .SpecialUse),
  ("specialuse_exists", .SpecialUseExists),
  ("stop", .Stop),
  ("string", .String),
  ("subject", .Subject),
  ("subtype", .Subtype),
  ("text", .Text),
  ("true", .True),
  ("type", .Type),
  ("under", .Under),
  ("uniqueid", .UniqueId),
  ("upper", .Upper),
  ("upperfirst", .UpperFirst),
  ("user", .User),
  ("vacation", .Vacation),
  ("valid_ext_list", .ValidExtList),
  ("valid_notify_method", .ValidNotifyMethod),
  ("value", .Value),
  ("virustest", .VirusTest),
  ("zone", .Zone),
  ("eval", .Eval),
  ("local", .Local),
  ("while", .While),
  ("let", .Let),
  ("continue", .Continue)]

/-- `lookup_words`, `src/compiler/lexer/word.rs:143`: `hashify::tiny_map!` is a lookup by equality. -/
def lookupWord (s : List UInt8) : Option Word := (wordTable.find? (fun p => bytes p.1 = s)).map (·.2)

/-- `Display for Word`, `src/compiler/lexer/word.rs:277-410`. -/
def showWord : Word → String
  | .AddFlag => "addflag"
  | .AddHeader => "addheader"
  | .Address => "address"
  | .Addresses => "addresses"
  | .All => "all"
  | .AllOf => "allof"
  | .AnyChild => "anychild"
  | .AnyOf => "anyof"
  | .Body => "body"
  | .Break => "break"
  | .ByMode => "bymode"
  | .ByTimeAbsolute => "bytimeabsolute"
  | .ByTimeRelative => "bytimerelative"
  | .ByTrace => "bytrace"
  | .Comparator => "comparator"
  | .Contains => "contains"
  | .Content => "content"
  | .ContentType => "contenttype"
  | .Convert => "convert"
  | .Copy => "copy"
  | .Count => "count"
  | .Create => "create"
  | .CurrentDate => "currentdate"
  | .Date => "date"
  | .Days => "days"
  | .DeleteHeader => "deleteheader"
  | .Detail => "detail"
  | .Discard => "discard"
  | .Domain => "domain"
  | .Duplicate => "duplicate"
  | .Else => "else"
  | .ElsIf => "elsif"
  | .Enclose => "enclose"
  | .EncodeUrl => "encodeurl"
  | .Envelope => "envelope"
  | .Environment => "environment"
  | .Ereject => "ereject"
  | .Error => "error"
  | .Exists => "exists"
  | .ExtractText => "extracttext"
  | .False => "false"
  | .Fcc => "fcc"
  | .FileInto => "fileinto"
  | .First => "first"
  | .Flags => "flags"
  | .ForEveryPart => "foreverypart"
  | .From => "from"
  | .Global => "global"
  | .Handle => "handle"
  | .HasFlag => "hasflag"
  | .Header => "header"
  | .Headers => "headers"
  | .If => "if"
  | .Ihave => "ihave"
  | .Importance => "importance"
  | .Include => "include"
  | .Index => "index"
  | .Is => "is"
  | .Keep => "keep"
  | .Last => "last"
  | .Length => "length"
  | .List => "list"
  | .LocalPart => "localpart"
  | .Lower => "lower"
  | .LowerFirst => "lowerfirst"
  | .MailboxExists => "mailboxexists"
  | .MailboxId => "mailboxid"
  | .MailboxIdExists => "mailboxidexists"
  | .Matches => "matches"
  | .Message => "message"
  | .Metadata => "metadata"
  | .MetadataExists => "metadataexists"
  | .Mime => "mime"
  | .Name => "name"
  | .Not => "not"
  | .Notify => "notify"
  | .NotifyMethodCapability => "notify_method_capability"
  | .Once => "once"
  | .Optional => "optional"
  | .Options => "options"
  | .OriginalZone => "originalzone"
  | .Over => "over"
  | .Param => "param"
  | .Percent => "percent"
  | .Personal => "personal"
  | .QuoteRegex => "quoteregex"
  | .QuoteWildcard => "quotewildcard"
  | .Raw => "raw"
  | .Redirect => "redirect"
  | .Regex => "regex"
  | .Reject => "reject"
  | .RemoveFlag => "removeflag"
  | .Replace => "replace"
  | .Require => "require"
  | .Ret => "ret"
  | .Return => "return"
  | .Seconds => "seconds"
  | .ServerMetadata => "servermetadata"
  | .ServerMetadataExists => "servermetadataexists"
  | .Set => "set"
  | .SetFlag => "setflag"
  | .Size => "size"
  | .SpamTest => "spamtest"
  | .SpecialUse => "specialuse"
  | .SpecialUseExists => "specialuse_exists"
  | .Stop => "stop"
  | .String => "string"
  | .Subject => "subject"
  | .Subtype => "subtype"
  | .Text => "text"
  | .True => "true"
  | .Type => "type"
  | .Under => "under"
  | .UniqueId => "uniqueid"
  | .Upper => "upper"
  | .UpperFirst => "upperfirst"
  | .User => "user"
  | .Vacation => "vacation"
  | .ValidExtList => "valid_ext_list"
  | .ValidNotifyMethod => "valid_notify_method"
  | .Value => "value"
  | .VirusTest => "virustest"
  | .Zone => "zone"
  | .Eval => "eval"
  | .Local => "local"
  | .While => "while"
  | .Let => "let"
  | .Continue => "continue"

/-- `Comparator`, `src/compiler/grammar/mod.rs:147-153`. -/
inductive Comparator where
  | Elbonia | Octet | AsciiCaseMap | AsciiNumeric
  | Other (s : List UInt8)
deriving DecidableEq

/-- `Capability`, `src/compiler/grammar/mod.rs:31-82`. -/
inductive Cap where
  | Envelope | EnvelopeDsn | EnvelopeDeliverBy | FileInto | EncodedCharacter | Body | Convert | Copy
  | Relational | Date | Index | Duplicate | Variables | EditHeader | ForEveryPart | Mime | Replace | Enclose
  | ExtractText | Enotify | RedirectDsn | RedirectDeliverBy | Environment | Reject | Ereject | ExtLists
  | SubAddress | Vacation | VacationSeconds | Fcc | Mailbox | MailboxId | MboxMetadata | ServerMetadata
  | SpecialUse | Imap4Flags | Ihave | ImapSieve | Include | Regex | SpamTest | SpamTestPlus | VirusTest
  | Expressions | While
  | Comparator (c : Comparator)
  | Other (s : List UInt8)
deriving DecidableEq

/-- The table of `lookup_capabilities`, `src/compiler/grammar/mod.rs:681-736`. -/
def capTable : List (String × Cap) := [
  ("envelope", .Envelope),
  ("envelope-dsn", .EnvelopeDsn),
  ("envelope-deliverby", .EnvelopeDeliverBy),
  ("fileinto", .FileInto),
  ("encoded-character", .EncodedCharacter),
  ("comparator-elbonia", .Comparator .Elbonia),
  ("comparator-i;octet", .Comparator .Octet),
  ("comparator-i;ascii-casemap", .Comparator .AsciiCaseMap),
  ("comparator-i;ascii-numeric", .Comparator .AsciiNumeric),
  ("body", .Body),
  ("convert", .Convert),
  ("copy", .Copy),
  ("relational", .Relational),
  ("date", .Date),
  ("index", .Index),
  ("duplicate", .Duplicate),
  ("variables", .Variables),
  ("editheader", .EditHeader),
  ("foreverypart", .ForEveryPart),
  ("mime", .Mime),
  ("replace", .Replace),
  ("enclose", .Enclose),
  ("extracttext", .ExtractText),
  ("enotify", .Enotify),
  ("redirect-dsn", .RedirectDsn),
  ("redirect-deliverby", .RedirectDeliverBy),
  ("environment", .Environment),
  ("reject", .Reject),
  ("ereject", .Ereject),
  ("extlists", .ExtLists),
  ("subaddress", .SubAddress),
  ("vacation", .Vacation),
  ("vacation-seconds", .VacationSeconds),
  ("fcc", .Fcc),
  ("mailbox", .Mailbox),
  ("mailboxid", .MailboxId),
  ("mboxmetadata", .MboxMetadata),
  ("servermetadata", .ServerMetadata),
  ("special-use", .SpecialUse),
  ("imap4flags", .Imap4Flags),
  ("ihave", .Ihave),
  ("imapsieve", .ImapSieve),
  ("include", .Include),
  ("regex", .Regex),
  ("spamtest", .SpamTest),
  ("spamtestplus", .SpamTestPlus),
  ("virustest", .VirusTest),
  ("vnd.stalwart.while", .While),
  ("vnd.stalwart.expressions", .Expressions)]

/-- `lookup_capabilities`, `src/compiler/grammar/mod.rs:681`. -/
def lookupCap (s : List UInt8) : Option Cap := (capTable.find? (fun p => bytes p.1 = s)).map (·.2)

/-- `str::strip_prefix`.  For `parseCap`, `src/compiler/grammar/mod.rs:509-517`. -/
def stripPrefix (p s : List UInt8) : Option (List UInt8) :=
  if p = s.take p.length then some (s.drop p.length) else none

/-- `Capability::parse`, `src/compiler/grammar/mod.rs:509-517`. -/
def parseCap (s : List UInt8) : Cap :=
  match lookupCap s with
  | some c => c
  | none =>
    match stripPrefix (bytes "comparator-") s with
    | some c => .Comparator (.Other c)
    | none => .Other s

/-- `Display for Capability`, `src/compiler/grammar/mod.rs:619-679`. -/
def showCap : Cap → List UInt8
  | .Envelope => bytes "envelope"
  | .EnvelopeDsn => bytes "envelope-dsn"
  | .EnvelopeDeliverBy => bytes "envelope-deliverby"
  | .FileInto => bytes "fileinto"
  | .EncodedCharacter => bytes "encoded-character"
  | .Comparator .Elbonia => bytes "comparator-elbonia"
  | .Comparator .Octet => bytes "comparator-i;octet"
  | .Comparator .AsciiCaseMap => bytes "comparator-i;ascii-casemap"
  | .Comparator .AsciiNumeric => bytes "comparator-i;ascii-numeric"
  | .Body => bytes "body"
  | .Convert => bytes "convert"
  | .Copy => bytes "copy"
  | .Relational => bytes "relational"
  | .Date => bytes "date"
  | .Index => bytes "index"
  | .Duplicate => bytes "duplicate"
  | .Variables => bytes "variables"
  | .EditHeader => bytes "editheader"
  | .ForEveryPart => bytes "foreverypart"
  | .Mime => bytes "mime"
  | .Replace => bytes "replace"
  | .Enclose => bytes "enclose"
  | .ExtractText => bytes "extracttext"
  | .Enotify => bytes "enotify"
  | .RedirectDsn => bytes "redirect-dsn"
  | .RedirectDeliverBy => bytes "redirect-deliverby"
  | .Environment => bytes "environment"
  | .Reject => bytes "reject"
  | .Ereject => bytes "ereject"
  | .ExtLists => bytes "extlists"
  | .SubAddress => bytes "subaddress"
  | .Vacation => bytes "vacation"
  | .VacationSeconds => bytes "vacation-seconds"
  | .Fcc => bytes "fcc"
  | .Mailbox => bytes "mailbox"
  | .MailboxId => bytes "mailboxid"
  | .MboxMetadata => bytes "mboxmetadata"
  | .ServerMetadata => bytes "servermetadata"
  | .SpecialUse => bytes "special-use"
  | .Imap4Flags => bytes "imap4flags"
  | .Ihave => bytes "ihave"
  | .ImapSieve => bytes "imapsieve"
  | .Include => bytes "include"
  | .Regex => bytes "regex"
  | .SpamTest => bytes "spamtest"
  | .SpamTestPlus => bytes "spamtestplus"
  | .VirusTest => bytes "virustest"
  | .While => bytes "vnd.stalwart.while"
  | .Expressions => bytes "vnd.stalwart.expressions"
  | .Comparator (.Other s) => s
  | .Other s => s

end Sieve.Args
