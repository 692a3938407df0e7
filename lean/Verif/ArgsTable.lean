import Verif.ArgsModel

/-!
# The arguments of each command and test

Which tags and positional arguments each command and each test takes, entry by entry from
`src/compiler/grammar/actions/*.rs` and `src/compiler/grammar/tests/*.rs`, and which capability its name needs
(`src/compiler/grammar/instruction.rs:176-583`, `src/compiler/grammar/test.rs:240-495`).
-/

namespace Sieve.Args

variable {F : Type}

abbrev Rows := List (Word × Row)

/-- The row of a tag. -/
def Rows.tag (rs : Rows) (w : Word) : Option Row := (rs.find? (·.1 = w)).map (·.2)

/-- Match types: `:is`, `:contains`, `:matches`, `:value`, `:count`, `:regex`, all with the same number; see for example
`src/compiler/grammar/tests/test_header.rs:59-81` and `parse_match_type`, `grammar/mod.rs:263-290`. -/
def matchRows (slot : Nat) : Rows := [
  (.Is, ⟨slot, none, .flag⟩), (.Contains, ⟨slot, none, .flag⟩), (.Matches, ⟨slot, none, .flag⟩),
  (.Value, ⟨slot, some .Relational, .rel⟩), (.Count, ⟨slot, some .Relational, .rel⟩),
  (.Regex, ⟨slot, some .Regex, .flag⟩)]

/-- Match types with `:list`. -/
def matchListRows (slot : Nat) : Rows := matchRows slot ++ [(.List, ⟨slot, some .ExtLists, .flag⟩)]

/-- `:comparator`: `parse_comparator`, `grammar/mod.rs:292-299`. -/
def comparatorRow (slot : Nat) : Rows := [(.Comparator, ⟨slot, none, .static []⟩)]

/-- `:index` and `:last` with the extension `index`. -/
def indexRows (slot : Nat) : Rows := [
  (.Index, ⟨slot, some .Index, .number 65535⟩), (.Last, ⟨slot + 1, some .Index, .flag⟩)]

/-- `:mime` and `:anychild` with the extension `mime`. -/
def mimeRows (slot : Nat) : Rows := [
  (.Mime, ⟨slot, some .Mime, .flag⟩), (.AnyChild, ⟨slot + 1, some .Mime, .flag⟩)]

/-- The parts of an address; `user` and `detail` need the extension `subaddress`, `src/compiler/grammar/tests/test_address.rs:54-73`. -/
def addressRows (slot : Nat) : Rows := [
  (.LocalPart, ⟨slot, none, .flag⟩), (.Domain, ⟨slot, none, .flag⟩), (.All, ⟨slot, none, .flag⟩),
  (.User, ⟨slot, some .SubAddress, .flag⟩), (.Detail, ⟨slot, some .SubAddress, .flag⟩)]

/-- How the arguments of a command are laid out. -/
inductive Shape where
  /-- no arguments -/
  | nothing
  /-- tags and positional arguments; `tail`: a string list may follow, as in `src/compiler/grammar/actions/action_editheader.rs:198-207` -/
  | args (rows : Rows) (pos : List Pos) (tail : Bool)
  /-- tags only -/
  | tags (rows : Rows)
  /-- `parse_keep`, `action_keep.rs:32-50` -/
  | keep
  /-- `parse_flag_action`, `src/compiler/grammar/actions/action_flags.rs:46-88` -/
  | flags
  /-- `parse_test_size`, `src/compiler/grammar/tests/test_size.rs:33-52` -/
  | size

/-- A command or test. -/
structure Entry where
  /-- the capabilities that its name needs -/
  caps : List Cap
  shape : Shape

/-- The parts of a date: `lookup_date_part`, `src/compiler/grammar/tests/test_date.rs:353-370`. -/
def dateParts : List String := ["year", "month", "day", "date", "julian", "hour", "minute", "second", "time", "iso8601",
  "std11", "zone", "weekday"]

/-- The modifiers of `extracttext`, `src/compiler/grammar/actions/action_mime.rs:173-200`; they are not given to `validate_argument`. -/
def modifierRows : Rows := [
  (.Lower, ⟨0, none, .flag⟩), (.Upper, ⟨0, none, .flag⟩), (.LowerFirst, ⟨0, none, .flag⟩), (.UpperFirst, ⟨0, none, .flag⟩),
  (.QuoteWildcard, ⟨0, none, .flag⟩), (.QuoteRegex, ⟨0, none, .flag⟩), (.Length, ⟨0, none, .flag⟩),
  (.Replace, ⟨0, none, .pair⟩), (.Local, ⟨0, none, .flag⟩)]

/-- The commands other than blocks and jumps, `instruction.rs:176-560`. -/
def commandEntry : Word → Option Entry
  | .Keep => some ⟨[], .keep⟩
  -- src/compiler/grammar/actions/action_fileinto.rs:35-107
  | .FileInto => some ⟨[.FileInto], .args [
      (.Copy, ⟨1, some .Copy, .flag⟩), (.Create, ⟨2, some .Mailbox, .flag⟩), (.Flags, ⟨3, some .Imap4Flags, .strs⟩),
      (.MailboxId, ⟨4, some .Mailbox, .str⟩), (.SpecialUse, ⟨5, some .SpecialUse, .str⟩)] [.lit false] false⟩
  -- src/compiler/grammar/actions/action_redirect.rs:127-279
  | .Redirect => some ⟨[], .args [
      (.Copy, ⟨1, some .Copy, .flag⟩), (.List, ⟨2, some .ExtLists, .flag⟩),
      (.ByTrace, ⟨3, some .RedirectDeliverBy, .flag⟩),
      (.ByMode, ⟨4, some .RedirectDeliverBy, .static ["notify", "return"]⟩),
      (.ByTimeRelative, ⟨5, some .RedirectDeliverBy, .number (2 ^ 64 - 1)⟩),
      (.ByTimeAbsolute, ⟨5, some .RedirectDeliverBy, .str⟩),
      (.Ret, ⟨6, some .RedirectDsn, .static ["full", "hdrs"]⟩),
      (.Notify, ⟨7, some .RedirectDsn, .notifyItems⟩)] [.lit false] false⟩
  | .Discard | .Stop => some ⟨[], .nothing⟩
  -- src/compiler/grammar/actions/action_mime.rs:92-214
  | .Replace => some ⟨[.Replace], .args [
      (.Mime, ⟨1, none, .flag⟩), (.Subject, ⟨2, none, .str⟩), (.From, ⟨3, none, .str⟩)] [.lit false] false⟩
  | .Enclose => some ⟨[.Enclose], .args [
      (.Subject, ⟨1, none, .str⟩), (.Headers, ⟨2, none, .strs⟩)] [.lit false] false⟩
  | .ExtractText => some ⟨[.ExtractText], .args ((.First, ⟨1, none, .number (2 ^ 64 - 1)⟩) :: modifierRows) [.name] false⟩
  -- src/compiler/grammar/actions/action_convert.rs:41-50
  | .Convert => some ⟨[.Convert], .args [] [.str, .str, .strs false] false⟩
  -- src/compiler/grammar/actions/action_editheader.rs:62-212
  | .AddHeader => some ⟨[.EditHeader], .args [(.Last, ⟨1, none, .flag⟩)] [.lit true, .value] false⟩
  | .DeleteHeader => some ⟨[.EditHeader], .args (matchRows 1 ++ comparatorRow 2 ++
      [(.Index, ⟨3, none, .number 65535⟩), (.Last, ⟨4, none, .flag⟩)] ++ mimeRows 5) [.lit true] true⟩
  -- src/compiler/grammar/actions/action_set.rs:87-150
  | .Set => some ⟨[.Variables], .args ((.EncodeUrl, ⟨0, none, .flag⟩) :: modifierRows) [.name, .lit false] false⟩
  | .Let => some ⟨[.Expressions], .args [] [.name, .expr] false⟩
  | .Eval => some ⟨[.Expressions], .args [] [.expr] false⟩
  -- src/compiler/grammar/actions/action_notify.rs:50-172
  | .Notify => some ⟨[.Enotify], .args [
      (.From, ⟨1, none, .sender⟩), (.Message, ⟨2, none, .str⟩), (.Importance, ⟨3, none, .str⟩), (.Options, ⟨4, none, .strs⟩),
      (.Create, ⟨5, some .Mailbox, .flag⟩), (.SpecialUse, ⟨6, some .SpecialUse, .str⟩),
      (.MailboxId, ⟨7, some .MailboxId, .str⟩), (.Fcc, ⟨8, some .Fcc, .str⟩),
      (.Flags, ⟨9, some .Imap4Flags, .strs⟩)] [.uri] false⟩
  -- action_reject.rs:29-36
  | .Reject => some ⟨[.Reject], .args [] [.str] false⟩
  | .Ereject => some ⟨[.Ereject], .args [] [.str] false⟩
  -- src/compiler/grammar/actions/action_vacation.rs:99-239
  | .Vacation => some ⟨[.Vacation], .args [
      (.Mime, ⟨1, none, .flag⟩), (.Create, ⟨2, some .Mailbox, .flag⟩), (.Days, ⟨3, none, .number (2 ^ 64 - 1)⟩),
      (.Seconds, ⟨3, some .VacationSeconds, .number (2 ^ 64 - 1)⟩), (.Subject, ⟨4, none, .str⟩), (.From, ⟨5, none, .str⟩),
      (.Handle, ⟨6, none, .str⟩), (.SpecialUse, ⟨7, some .SpecialUse, .str⟩), (.MailboxId, ⟨8, some .MailboxId, .str⟩),
      (.Fcc, ⟨9, some .Fcc, .str⟩), (.Flags, ⟨10, some .Imap4Flags, .strs⟩),
      (.Addresses, ⟨11, none, .strs⟩)] [.lit false] false⟩
  -- test_ihave.rs:55-61
  | .Error => some ⟨[.Ihave], .args [] [.str] false⟩
  | .SetFlag | .AddFlag | .RemoveFlag => some ⟨[.Imap4Flags], .flags⟩
  -- src/compiler/grammar/actions/action_include.rs:53-92
  | .Include => some ⟨[.Include], .args [
      (.Once, ⟨1, none, .flag⟩), (.Optional, ⟨2, none, .flag⟩), (.Personal, ⟨3, none, .flag⟩),
      (.Global, ⟨3, none, .flag⟩)] [.lit false] false⟩
  -- instruction.rs:508-549
  | .Global => some ⟨[.Include, .Variables], .args [] [.statics] false⟩
  | _ => none

/-- The tests other than `not`, `anyof`, `allof`, `true` and `false`, `test.rs:255-495`. -/
def testEntry : Word → Option Entry
  -- src/compiler/grammar/tests/test_address.rs:39-162
  | .Address => some ⟨[], .args ((.Name, ⟨1, none, .flag⟩) :: addressRows 1 ++ matchListRows 2 ++ comparatorRow 3 ++
      indexRows 4 ++ mimeRows 6) [.strs false, .keys] false⟩
  -- src/compiler/grammar/tests/test_envelope.rs:40-197
  | .Envelope => some ⟨[.Envelope], .args (addressRows 1 ++ matchListRows 2 ++ comparatorRow 3 ++
      [(.Zone, ⟨4, some .EnvelopeDeliverBy, .zone⟩)]) [.envelope, .keys] false⟩
  -- src/compiler/grammar/tests/test_header.rs:44-173
  | .Header => some ⟨[], .args (matchListRows 1 ++ comparatorRow 2 ++ indexRows 3 ++ mimeRows 5 ++ [
      (.Type, ⟨7, some .Mime, .flag⟩), (.Subtype, ⟨7, some .Mime, .flag⟩), (.ContentType, ⟨7, some .Mime, .flag⟩),
      (.Param, ⟨7, some .Mime, .strs⟩)]) [.strs true, .keys] false⟩
  | .Size => some ⟨[], .size⟩
  -- src/compiler/grammar/tests/test_exists.rs:34-87
  | .Exists => some ⟨[], .args (mimeRows 1) [.strs true] false⟩
  -- src/compiler/grammar/tests/test_body.rs:51-119
  | .Body => some ⟨[.Body], .args ([(.Raw, ⟨1, none, .flag⟩), (.Text, ⟨1, none, .flag⟩), (.Content, ⟨1, none, .strs⟩),
      (.Subject, ⟨4, none, .flag⟩)] ++ matchRows 2 ++ comparatorRow 3) [.keys] false⟩
  -- src/compiler/grammar/actions/action_convert.rs:32-39
  | .Convert => some ⟨[.Convert], .args [] [.str, .str, .strs false] false⟩
  -- src/compiler/grammar/tests/test_date.rs:97-230
  | .Date => some ⟨[.Date], .args (matchListRows 1 ++ comparatorRow 2 ++ indexRows 3 ++ mimeRows 5 ++ [
      (.OriginalZone, ⟨7, none, .flag⟩), (.Zone, ⟨7, none, .zone⟩)]) [.lit true, .part dateParts, .keys] false⟩
  -- src/compiler/grammar/tests/test_date.rs:232-301
  | .CurrentDate => some ⟨[.Date], .args (matchListRows 1 ++ comparatorRow 2 ++ [(.Zone, ⟨3, none, .zone⟩)])
      [.part dateParts, .keys] false⟩
  -- src/compiler/grammar/tests/test_duplicate.rs:51-108
  | .Duplicate => some ⟨[.Duplicate], .tags [(.Handle, ⟨1, none, .str⟩), (.Header, ⟨2, none, .header⟩),
      (.UniqueId, ⟨2, none, .str⟩), (.Seconds, ⟨3, none, .number (2 ^ 64 - 1)⟩), (.Last, ⟨4, none, .flag⟩)]⟩
  -- src/compiler/grammar/tests/test_string.rs:35-90
  | .String => some ⟨[.Variables], .args (matchListRows 1 ++ comparatorRow 2) [.strs false, .keys] false⟩
  -- src/compiler/grammar/tests/test_notify.rs:50-115
  | .NotifyMethodCapability => some ⟨[.Enotify], .args (matchRows 1 ++ comparatorRow 2)
      [.lit false, .lit false, .keys] false⟩
  | .ValidNotifyMethod => some ⟨[.Enotify], .args [] [.strs false] false⟩
  -- test_environment.rs:18-79
  | .Environment => some ⟨[.Environment], .args (matchRows 1 ++ comparatorRow 2) [.const, .keys] false⟩
  -- src/compiler/grammar/tests/test_extlists.rs:30-35
  | .ValidExtList => some ⟨[.ExtLists], .args [] [.strs false] false⟩
  -- test_ihave.rs:44-53
  | .Ihave => some ⟨[.Ihave], .args [] [.statics] false⟩
  -- src/compiler/grammar/tests/test_hasflag.rs:41-147
  | .HasFlag => some ⟨[.Imap4Flags], .args (matchRows 1 ++ comparatorRow 2 ++ [(.Local, ⟨0, none, .flag⟩)])
      [.strs false] true⟩
  -- test_mailbox.rs:85-226
  | .MailboxExists => some ⟨[.Mailbox], .args [] [.strs false] false⟩
  | .Metadata => some ⟨[.MboxMetadata], .args (matchRows 1 ++ comparatorRow 2) [.lit false, .lit false, .keys] false⟩
  | .MetadataExists => some ⟨[.MboxMetadata], .args [] [.str, .strs false] false⟩
  | .ServerMetadata => some ⟨[.ServerMetadata], .args (matchRows 1 ++ comparatorRow 2) [.lit false, .keys] false⟩
  | .ServerMetadataExists => some ⟨[.ServerMetadata], .args [] [.strs false] false⟩
  -- test_mailboxid.rs:30-35
  | .MailboxIdExists => some ⟨[.MailboxId], .args [] [.strs false] false⟩
  -- src/compiler/grammar/tests/test_spamtest.rs:56-163
  | .SpamTest => some ⟨[.SpamTest], .args (matchRows 1 ++ comparatorRow 2 ++
      [(.Percent, ⟨3, some .SpamTestPlus, .flag⟩)]) [.lit false] false⟩
  | .VirusTest => some ⟨[.VirusTest], .args (matchRows 1 ++ comparatorRow 2) [.lit false] false⟩
  -- test_specialuse.rs:34-55
  | .SpecialUseExists => some ⟨[.SpecialUse], .args [] [.strs false] true⟩
  -- test.rs:482-492
  | .Eval => some ⟨[.Expressions], .args [] [.expr] false⟩
  | _ => none

/-! ## Checks after the loop -/

/-- `:anychild` and the options of `header` need `:mime`, for example `src/compiler/grammar/tests/test_header.rs:158-160`. -/
def mimeCheck (g : Got F) : Bool :=
  g.hasTag .Mime || !(g.hasTag .AnyChild || g.hasTag .Type || g.hasTag .Subtype || g.hasTag .ContentType || g.hasTag .Param)

/-- The options of `:fcc` need it, `src/compiler/grammar/actions/action_notify.rs:146-150`, `src/compiler/grammar/actions/action_vacation.rs:202-206`. -/
def fccCheck (g : Got F) : Bool :=
  g.hasTag .Fcc || !(g.hasTag .Create || g.hasTag .Flags || g.hasTag .SpecialUse || g.hasTag .MailboxId)

/-- `validate_match`, `grammar/mod.rs:482-505`. -/
def regexCheck (x : Ext F) (g : Got F) (keys : List (Val F)) : Bool :=
  !g.hasTag .Regex || keys.all (textOk x.regexOk)

/-- The last positional argument, if it is a list. -/
def Got.lastVals (g : Got F) : List (Val F) :=
  match g.pos.getLast? with
  | some (.vals vs) => vs
  | _ => []

/-- A constant string that can be the name of a variable, `src/compiler/grammar/tests/test_hasflag.rs:97-120`. -/
def varName (x : Ext F) : Val F → Bool
  | .text s => x.nameOk s
  | _ => false

/-- The checks after the loop; `tail` is the string list that followed. -/
def check (x : Ext F) (w : Word) (g : Got F) (tail : Option (List (Val F))) : Bool :=
  match w with
  | .Header | .Address | .Date => mimeCheck g && regexCheck x g g.lastVals
  | .Exists => mimeCheck g
  | .DeleteHeader => mimeCheck g && regexCheck x g (tail.getD [])
  | .Notify | .Vacation => fccCheck g
  | .Envelope | .Body | .CurrentDate | .String | .NotifyMethodCapability | .Environment | .Metadata | .ServerMetadata =>
    regexCheck x g g.lastVals
  | .HasFlag =>
    match tail with
    | some flags => g.lastVals.all (varName x) && regexCheck x g flags
    | none => regexCheck x g g.lastVals
  | .SpecialUseExists => tail.isNone || g.lastVals.length = 1
  | _ => true

/-! ## Reading the arguments -/

/-- `parse_keep`, `action_keep.rs:32-50`. -/
def readKeep (x : Ext F) (has : Cap → Bool) : List (Tok F) → Option (Got F × List (Tok F))
  | .tag .Flags :: ts =>
    if has .Imap4Flags then (readStrings x ts).map fun p => ({ tags := [(.Flags, .vals p.1)] }, p.2) else none
  | ts => some ({}, ts)

/-- `(Token::BracketOpen, _) | (Token::StringConstant(_) | Token::StringVariable(_), Some(Ok(Token::Semicolon)))` -/
def flagsOnly : List (Tok F) → Bool
  | .bracketOpen :: _ => true
  | t :: .semicolon :: _ => startsString [t]
  | _ => false

/-- `parse_flag_action`, `src/compiler/grammar/actions/action_flags.rs:46-88`. -/
def readFlags (x : Ext F) : List (Tok F) → Option (Got F × List (Tok F))
  | [] => none
  | t :: ts =>
    match constText x t, startsString ts with
    | some s, true =>
      if x.nameOk s then (readStrings x ts).map fun p => ({ pos := [.text s, .vals p.1] }, p.2) else none
    | _, _ =>
      if flagsOnly (t :: ts) then
        (readStrings x (t :: ts)).map fun p => ({ pos := [.vals p.1] }, p.2)
      else none

/-- `parse_test_size`, `src/compiler/grammar/tests/test_size.rs:33-52`. -/
def readSize : List (Tok F) → Option (Got F × List (Tok F))
  | .tag .Over :: .number n :: ts => some ({ tags := [(.Over, .flag)], pos := [.num n] }, ts)
  | .tag .Under :: .number n :: ts => some ({ tags := [(.Under, .flag)], pos := [.num n] }, ts)
  | _ => none

/-- A string list that may follow. -/
def readTail (x : Ext F) (ts : List (Tok F)) : Option (Option (List (Val F)) × List (Tok F)) :=
  if startsString ts then (readStrings x ts).map fun p => (some p.1, p.2) else some (none, ts)

/-- The arguments of the command or test `w`. -/
def readShape (x : Ext F) (has : Cap → Bool) (w : Word) (s : Shape) (ts : List (Tok F)) :
    Option (Got F × List (Tok F)) :=
  match s with
  | .nothing => some ({}, ts)
  | .keep => readKeep x has ts
  | .flags => readFlags x ts
  | .size => readSize ts
  | .tags rows => tagLoop x has rows.tag (ts.length + 1) noParams {} ts
  | .args rows pos tail =>
    (loop x has rows.tag (ts.length + 1) noParams pos {} ts).bind fun p =>
      if tail then
        (readTail x p.2).bind fun q =>
          if check x w p.1 q.1 then
            some ({ p.1 with pos := p.1.pos ++ (match q.1 with | some vs => [.vals vs] | none => []) }, q.2)
          else none
      else if check x w p.1 none then some p else none

/-- A command or test with its name: `validate_argument(0, …)` and its arguments. -/
def readEntry (x : Ext F) (has : Cap → Bool) (w : Word) (e : Entry) (ts : List (Tok F)) : Option (Got F × List (Tok F)) :=
  if e.caps.all has then readShape x has w e.shape ts else none

end Sieve.Args
