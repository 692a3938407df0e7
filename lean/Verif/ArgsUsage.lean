import Verif.ArgsProps

/-!
# Arguments: the usage lines of the documents

The tags of each command and test with the type of what follows them, and the types of the positional arguments, as the
`Usage:` lines of the documents give them, compared with the table of `ArgsTable`.
-/

namespace Sieve.Args

/-- The types of arguments in usage lines. -/
inductive Ty where
  /-- only the tag -/
  | nothing
  | string
  | strings
  | number
  | twoStrings
  /-- the name of a header field, several of them -/
  | headerName
  | headerNames
  /-- what is compared with -/
  | keys
  /-- the name of a variable -/
  | variable
  | uri
  | expression
  | datePart
  | envelopeParts
  /-- without variables in it -/
  | constant
  | constants
deriving DecidableEq

def Kind.ty : Kind → Ty
  | .flag => .nothing
  | .str | .sender | .header | .static _ | .notifyItems | .rel | .zone => .string
  | .strs => .strings
  | .number _ => .number
  | .pair => .twoStrings

def Pos.ty : Pos → Ty
  | .lit h => if h then .headerName else .string
  | .value | .str => .string
  | .uri => .uri
  | .name => .variable
  | .const => .constant
  | .part _ => .datePart
  | .expr => .expression
  | .strs h => if h then .headerNames else .strings
  | .keys => .keys
  | .statics => .constants
  | .envelope => .envelopeParts

/-- MATCH-TYPE of RFC 5228 with RFC 5231 and the draft on regular expressions -/
def MATCH : List (Word × Ty) := [(.Is, .nothing), (.Contains, .nothing), (.Matches, .nothing), (.Value, .string),
  (.Count, .string), (.Regex, .nothing)]

/-- COMPARATOR -/
def COMPARATOR : List (Word × Ty) := [(.Comparator, .string)]

/-- ADDRESS-PART of RFC 5228 with RFC 5233 -/
def PART : List (Word × Ty) := [(.LocalPart, .nothing), (.Domain, .nothing), (.All, .nothing), (.User, .nothing),
  (.Detail, .nothing)]

/-- `[":index" <number> [":last"]]` -/
def INDEX : List (Word × Ty) := [(.Index, .number), (.Last, .nothing)]

/-- `[":mime"] [":anychild"]` -/
def MIME : List (Word × Ty) := [(.Mime, .nothing), (.AnyChild, .nothing)]

/-- MODIFIER of RFC 5229 with its extensions -/
def MODIFIER : List (Word × Ty) := [(.Lower, .nothing), (.Upper, .nothing), (.LowerFirst, .nothing), (.UpperFirst, .nothing),
  (.QuoteWildcard, .nothing), (.Length, .nothing), (.QuoteRegex, .nothing), (.Replace, .twoStrings), (.Local, .nothing)]

/-- FCC-OPTS of RFC 8580 -/
def FCC : List (Word × Ty) := [(.Fcc, .string), (.Create, .nothing), (.Flags, .strings), (.SpecialUse, .string),
  (.MailboxId, .string)]

/-- Usage of the commands: tags, positional arguments, and whether one more string list may follow. -/
def commandUsage : Word → Option (List (Word × Ty) × List Ty × Bool)
  | .FileInto => some ([(.MailboxId, .string), (.SpecialUse, .string), (.Create, .nothing), (.Copy, .nothing),
      (.Flags, .strings)], [.string], false)
  | .Redirect => some ([(.Copy, .nothing), (.List, .nothing), (.Notify, .string), (.Ret, .string), (.ByTimeRelative, .number),
      (.ByTimeAbsolute, .string), (.ByMode, .string), (.ByTrace, .nothing)], [.string], false)
  | .Replace => some ([(.Mime, .nothing), (.Subject, .string), (.From, .string)], [.string], false)
  | .Enclose => some ([(.Subject, .string), (.Headers, .strings)], [.string], false)
  | .ExtractText => some ((.First, .number) :: MODIFIER, [.variable], false)
  | .Convert => some ([], [.string, .string, .strings], false)
  | .AddHeader => some ([(.Last, .nothing)], [.headerName, .string], false)
  | .DeleteHeader => some (INDEX ++ MATCH ++ COMPARATOR ++ MIME, [.headerName], true)
  | .Set => some (MODIFIER ++ [(.EncodeUrl, .nothing)], [.variable, .string], false)
  | .Let => some ([], [.variable, .expression], false)
  | .Eval => some ([], [.expression], false)
  | .Notify => some ([(.From, .string), (.Importance, .string), (.Options, .strings), (.Message, .string)] ++ FCC,
      [.uri], false)
  | .Reject | .Ereject | .Error => some ([], [.string], false)
  | .Vacation => some ([(.Days, .number), (.Seconds, .number), (.Subject, .string), (.From, .string), (.Addresses, .strings),
      (.Mime, .nothing), (.Handle, .string)] ++ FCC, [.string], false)
  | .Include => some ([(.Personal, .nothing), (.Global, .nothing), (.Once, .nothing), (.Optional, .nothing)], [.string], false)
  | .Global => some ([], [.constants], false)
  | _ => none

/-- Usage of the tests. -/
def testUsage : Word → Option (List (Word × Ty) × List Ty × Bool)
  | .Address => some (MIME ++ COMPARATOR ++ PART ++ [(.Name, .nothing)] ++ MATCH ++ [(.List, .nothing)] ++ INDEX,
      [.strings, .keys], false)
  | .Envelope => some (COMPARATOR ++ PART ++ MATCH ++ [(.List, .nothing), (.Zone, .string)], [.envelopeParts, .keys], false)
  | .Header => some (MIME ++ [(.Type, .nothing), (.Subtype, .nothing), (.ContentType, .nothing), (.Param, .strings)] ++
      COMPARATOR ++ MATCH ++ [(.List, .nothing)] ++ INDEX, [.headerNames, .keys], false)
  | .Exists => some (MIME, [.headerNames], false)
  | .Body => some (COMPARATOR ++ MATCH ++ [(.Raw, .nothing), (.Content, .strings), (.Text, .nothing), (.Subject, .nothing)],
      [.keys], false)
  | .Convert => some ([], [.string, .string, .strings], false)
  | .Date => some ([(.Zone, .string), (.OriginalZone, .nothing)] ++ COMPARATOR ++ MATCH ++ [(.List, .nothing)] ++ INDEX ++ MIME,
      [.headerName, .datePart, .keys], false)
  | .CurrentDate => some ((.Zone, .string) :: COMPARATOR ++ MATCH ++ [(.List, .nothing)], [.datePart, .keys], false)
  | .Duplicate => some ([(.Handle, .string), (.Header, .string), (.UniqueId, .string), (.Seconds, .number),
      (.Last, .nothing)], [], false)
  | .String => some (MATCH ++ [(.List, .nothing)] ++ COMPARATOR, [.strings, .keys], false)
  | .NotifyMethodCapability => some (COMPARATOR ++ MATCH, [.string, .string, .keys], false)
  | .Environment => some (COMPARATOR ++ MATCH, [.constant, .keys], false)
  | .Ihave => some ([], [.constants], false)
  | .ValidNotifyMethod | .ValidExtList | .MailboxExists | .ServerMetadataExists | .MailboxIdExists =>
    some ([], [.strings], false)
  | .HasFlag => some (MATCH ++ COMPARATOR ++ [(.Local, .nothing)], [.strings], true)
  | .Metadata => some (MATCH ++ COMPARATOR, [.string, .string, .keys], false)
  | .MetadataExists => some ([], [.string, .strings], false)
  | .ServerMetadata => some (MATCH ++ COMPARATOR, [.string, .keys], false)
  | .SpamTest => some ((.Percent, .nothing) :: COMPARATOR ++ MATCH, [.string], false)
  | .VirusTest => some (COMPARATOR ++ MATCH, [.string], false)
  | .SpecialUseExists => some ([], [.strings], true)
  | .Eval => some ([], [.expression], false)
  | _ => none

/-- A layout of the table as a usage line. -/
def Shape.usage : Shape → Option (List (Word × Ty) × List Ty × Bool)
  | .args rows ps tail => some (rows.map fun p => (p.1, p.2.kind.ty), ps.map Pos.ty, tail)
  | .tags rows => some (rows.map fun p => (p.1, p.2.kind.ty), [], false)
  | _ => none

/-- Two usage lines say the same, the order of the tags aside. -/
def SameUsage : Option (List (Word × Ty) × List Ty × Bool) → Option (List (Word × Ty) × List Ty × Bool) → Prop
  | some a, some b => a.1.Perm b.1 ∧ a.2 = b.2
  | none, none => True
  | _, _ => False

instance (a b) : Decidable (SameUsage a b) := by
  unfold SameUsage
  split <;> infer_instance

/-- C77: the table has for every command the tags of its usage line, each once and with an argument of the right type,
and its positional arguments in their order. -/
theorem command_usage (w : Word) : SameUsage ((commandEntry w).bind (·.shape.usage)) (commandUsage w) := by
  cases w <;> decide +kernel

/-- C77: the same for every test. -/
theorem test_usage (w : Word) : SameUsage ((testEntry w).bind (·.shape.usage)) (testUsage w) := by
  cases w <;> decide +kernel

def special : Shape → Nat
  | .nothing => 1
  | .keep => 2
  | .flags => 3
  | .size => 4
  | _ => 0

/-- C77: which names are commands and tests with arguments, and which of them have a layout of their own. -/
theorem special_entries (w : Word) :
    (((commandEntry w).map fun e => special e.shape) = (match w with
      | .Discard | .Stop => some 1
      | .Keep => some 2
      | .SetFlag | .AddFlag | .RemoveFlag => some 3
      | _ => (commandUsage w).map fun _ => 0)) ∧
    (((testEntry w).map fun e => special e.shape) = (match w with
      | .Size => some 4
      | _ => (testUsage w).map fun _ => 0)) := by
  cases w <;> decide +kernel

example : SameUsage (some ([(.Is, .nothing), (.Value, .string)], [.strings], false))
    (some ([(.Value, .string), (.Is, .nothing)], [.strings], false)) ∧
    ¬ SameUsage (some ([(.Is, .nothing), (.Value, .string)], [.strings], false))
      (some ([(.Value, .nothing), (.Is, .nothing)], [.strings], false)) := by decide +kernel

end Sieve.Args
