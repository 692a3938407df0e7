import Verif.TestsModel

/-!
# The `body` test

Model of `find_nested_parts` and `ContentTypeFilter` (`src/runtime/tests/mime.rs`) and of the `body` test
(`src/runtime/tests/test_body.rs`).

The search calls a visitor on one part after another until it returns `true`; here the parts are collected in a list
first (`walk`), and the visitor is run over the list, which makes no difference since no visitor changes the message.
Keys, content types and the subject are evaluated already.  Offsets that do not fit the raw message give the empty
text, as `slice::get` with `unwrap_or` does.
-/

namespace Sieve.Body
open Sieve.Expr (Val)
open Sieve.Tests (Str Ext Comparator Match Item)

variable {F : Type}

/-- For `walk`, `mime.rs:60-140`. -/
abbrev Bytes := List UInt8

/-- The parts of `mail_parser`'s `ContentType` that are read, with the attribute `boundary`.
For `textOf`, `src/runtime/tests/test_body.rs:98-188`. -/
structure CType where
  main : Str
  sub : Option Str
  boundary : Option Str
deriving DecidableEq

/-- What is read of a `MessagePart` besides its body: `content_type()`, `raw_header_offset()`, `raw_body_offset()` and
`raw_end_offset()`.  For `isXml`, `src/runtime/tests/test_body.rs:174-177`. -/
structure Info where
  ctype : Option CType
  hdr : Nat
  body : Nat
  stop : Nat
deriving DecidableEq

/-- `mail_parser`'s `MessagePart` by its `PartType`; `binary` is `Binary` and `InlineBinary`.  An enclosed message has
its own raw text and parts.  For `walk`, `mime.rs:60-140`. -/
inductive Part where
  | text (i : Info) (t : Str)
  | html (i : Info) (t : Str)
  | binary (i : Info) (b : Bytes)
  | multipart (i : Info) (subs : List Nat)
  | message (i : Info) (raw : Bytes) (parts : List Part)

/-- `mail_parser`'s `Message`.  For `walk`, `mime.rs:60-140`. -/
structure Msg where
  raw : Bytes
  parts : List Part

/-- The offsets and the content type of a part.  For `Part.ctype`, `mime.rs:74-84`. -/
def Part.info : Part → Info
  | .text i _ | .html i _ | .binary i _ | .multipart i _ | .message i _ _ => i

/-- `find_nested_parts`, `mime.rs:60-140`: the parts handed to a visitor that always returns `false`, with the raw
message they are in.  `st` is `iter_stack`, the top first; `keep` is `process_part`.  `none` = still running after
`fuel` steps. -/
def walk (keep : Part → Bool) : Nat → Msg → List Nat → List (List Nat × Option Msg) → Option (List (Part × Bytes))
  | 0, _, _, _ => none
  | fuel + 1, m, id :: it, st =>
    match m.parts[id]? with
    | none => walk keep fuel m it st
    | some p =>
      (match p with
        | .multipart _ subs => walk keep fuel m subs ((it, none) :: st)
        | .message _ raw parts => walk keep fuel ⟨raw, parts⟩ [0] ((it, some m) :: st)
        | _ => walk keep fuel m it st).map ((if keep p then [(p, m.raw)] else []) ++ ·)
  | fuel + 1, m, [], (it, prev) :: st =>
    match prev with
    | some m' => walk keep fuel m' it st
    | none => walk keep fuel m it st
  | _ + 1, _, [], [] => some []

/-- `ContentTypeFilter`, `mime.rs:12-16`. -/
inductive Filter where
  | type (name : Str)
  | typeSubtype (name sub : Str)
deriving DecidableEq

/-- `str::split('/')`.  For `Filter.parse`, `mime.rs:186-203`. -/
def splitSlash : Str → List Str
  | [] => [[]]
  | c :: cs =>
    if c = '/' then [] :: splitSlash cs
    else match splitSlash cs with
      | [] => [[c]]
      | w :: ws => (c :: w) :: ws

/-- `ContentTypeFilter::parse`, `mime.rs:186-203`. -/
def Filter.parse (ct : Str) : Option Filter :=
  match splitSlash ct with
  | [] => none
  | [name] => if name.isEmpty then none else some (.type name)
  | [name, sub] => if !name.isEmpty && !sub.isEmpty then some (.typeSubtype name sub) else none
  | _ => none

/-- The content type of a part, `mime.rs:74-84`. -/
def Part.ctype (p : Part) : Str × Str :=
  match p.info.ctype with
  | some ct => (ct.main, ct.sub.getD [])
  | none =>
    match p with
    | .text .. => ("text".toList, "plain".toList)
    | .html .. => ("text".toList, "html".toList)
    | .message .. => ("message".toList, "rfc822".toList)
    | .multipart .. => ("multipart".toList, "mixed".toList)
    | .binary .. => ("application".toList, "octet-stream".toList)

/-- One filter on a content type, `mime.rs:86-103`. -/
def Filter.accepts (x : Ext F) (ct : Str × Str) : Filter → Bool
  | .type name => x.eqIgnoreCase name ct.1
  | .typeSubtype name sub => x.eqIgnoreCase name ct.1 && x.eqIgnoreCase sub ct.2

/-- `process_part`, `mime.rs:72-109`. -/
def keep (x : Ext F) (filters : List Filter) (p : Part) : Bool :=
  filters.isEmpty || filters.any (·.accepts x p.ctype)

/-- `BodyTransform`, `src/compiler/grammar/tests/test_body.rs:43-48`, the content types evaluated. -/
inductive Transform (F : Type) where
  | text
  | raw
  | content (types : List (Val F))

/-- The list of filters, `src/runtime/tests/test_body.rs:63-77`; `none` is the early return. -/
def filters (x : Ext F) : List (Val F) → Option (List Filter)
  | [] => some []
  | ct :: cts =>
    if Tests.isEmpty ct then some []
    else
      match Filter.parse (Tests.text x.flt ct) with
      | some f => (filters x cts).map (f :: ·)
      | none => none

/-- What is used of other libraries: `String::from_utf8_lossy`, `str::from_utf8` and `html_to_text`.
For `textOf`, `src/runtime/tests/test_body.rs:98-188`. -/
structure Lib where
  lossy : Bytes → Str
  utf8 : Bytes → Option Str
  html : Str → Str

/-- `raw.get(a..b).unwrap_or(b"")`.  For `textOf`, `src/runtime/tests/test_body.rs:98-188`. -/
def slice (raw : Bytes) (a b : Nat) : Bytes := if a ≤ b ∧ b ≤ raw.length then (raw.take b).drop a else []

/-- `str::split_once`: at the first occurrence.  For `around`, `src/runtime/tests/test_body.rs:127-137`. -/
def splitOnce (needle : Str) : Str → Option (Str × Str)
  | [] => if needle.isEmpty then some ([], []) else none
  | c :: cs =>
    if needle.isPrefixOf (c :: cs) then some ([], (c :: cs).drop needle.length)
    else (splitOnce needle cs).map fun r => (c :: r.1, r.2)

/-- `str::rsplit_once`: at the last occurrence.  For `around`, `src/runtime/tests/test_body.rs:127-137`. -/
def rsplitOnce (needle : Str) : Str → Option (Str × Str)
  | [] => if needle.isEmpty then some ([], []) else none
  | c :: cs =>
    match rsplitOnce needle cs with
    | some r => some (c :: r.1, r.2)
    | none => if needle.isPrefixOf (c :: cs) then some ([], (c :: cs).drop needle.length) else none

/-- `format!("\n--{boundary}")`.  For `around`, `src/runtime/tests/test_body.rs:127-137`. -/
def delimiter (boundary : Str) : Str := '\n' :: '-' :: '-' :: boundary

/-- `format!("\n--{boundary}--")`.  For `around`, `src/runtime/tests/test_body.rs:127-137`. -/
def closing (boundary : Str) : Str := delimiter boundary ++ ['-', '-']

/-- The text around the parts of a multipart, `src/runtime/tests/test_body.rs:127-137`. -/
def around (boundary body : Str) : Str :=
  match splitOnce (delimiter boundary) body with
  | some (prologue, rest) =>
    match rsplitOnce (closing boundary) rest with
    | some (_, epilogue) => prologue ++ epilogue
    | none => prologue
  | none => []

/-- The content type is `application/…xml…`, `src/runtime/tests/test_body.rs:174-177`. -/
def isXml (x : Ext F) (i : Info) : Bool :=
  match i.ctype with
  | some ct =>
    x.eqIgnoreCase ct.main "application".toList &&
      match ct.sub with
      | some st => Tests.infixOf "xml".toList st
      | none => false
  | none => false

/-- The text of a part, `src/runtime/tests/test_body.rs:98-188`; `none` is `return false`. -/
def textOf (x : Ext F) (lib : Lib) (tr : Transform F) (p : Part) (raw : Bytes) : Option Str :=
  match tr, p with
  | .content _, .message _ _ parts =>
    match parts.head? with
    | some first => some (lib.lossy (slice raw first.info.hdr first.info.body))
    | none => none
  | .content _, .multipart i _ =>
    match i.ctype.bind CType.boundary with
    | some b => some (around b ((lib.utf8 (slice raw i.body i.stop)).getD []))
    | none => some (lib.lossy (slice raw i.body i.stop))
  | .raw, p =>
    match p with
    | .text i t =>
      if i.body = 0 then some t
      else if i.stop > i.body then some (lib.lossy (slice raw i.body i.stop)) else none
    | p => if p.info.stop > p.info.body then some (lib.lossy (slice raw p.info.body p.info.stop)) else none
  | _, .text _ t => some t
  | .content _, .html _ t => some t
  | .text, .html _ t => some (lib.html t)
  | .text, .binary i b => if isXml x i then some (lib.html ((lib.utf8 b).getD [])) else none
  | .content _, .binary _ b => some (lib.lossy b)
  | .text, _ => none

/-- No match variables are set by this test: `capture_positions` is 0, `src/runtime/tests/test_body.rs:42-51, 200-210`. -/
def noCaptures : Match → Match
  | .matches _ => .matches 0
  | .regex _ => .regex 0
  | m => m

/-- One text against the keys, `src/runtime/tests/test_body.rs:33-58` and `189-221`. -/
def keysMatch (x : Ext F) (c : Comparator) (m : Match) (t : Str) (keys : List (Val F)) : Bool :=
  keys.any fun k => (Tests.attempt x c (noCaptures m) (.text t) (.val k) []).2

/-- The subject against the keys, `src/runtime/tests/test_body.rs:26-59`; `none` if it is not included. -/
def subjectMatch (x : Ext F) (c : Comparator) (m : Match) (keys : List (Val F)) : Option Str → Bool
  | some s => keysMatch x c m s keys
  | none => false

/-- The filters of a transformation, `src/runtime/tests/test_body.rs:61-78`; `none` is the early return. -/
def Transform.filters (x : Ext F) : Transform F → Option (List Filter)
  | .content types => Body.filters x types
  | _ => some []

/-- The visitor, `src/runtime/tests/test_body.rs:97-222`. -/
def partMatch (x : Ext F) (lib : Lib) (c : Comparator) (m : Match) (tr : Transform F) (keys : List (Val F))
    (pr : Part × Bytes) : Bool :=
  match textOf x lib tr pr.1 pr.2 with
  | some t => keysMatch x c m t keys
  | none => false

/-- The result for the parts that are visited, `src/runtime/tests/test_body.rs:80-223`. -/
def partsResult (x : Ext F) (lib : Lib) (c : Comparator) (m : Match) (tr : Transform F) (keys : List (Val F))
    (l : List (Part × Bytes)) : Bool :=
  match m with
  | .count r => Tests.countTest x r l.length keys
  | _ => l.any (partMatch x lib c m tr keys)

/-- `TestBody::exec`, `src/runtime/tests/test_body.rs:23-223`.  `subject` is the subject if `include_subject` is set; `none` = the
search does not end within `fuel` steps. -/
def bodyTest (x : Ext F) (lib : Lib) (isNot : Bool) (c : Comparator) (m : Match) (tr : Transform F)
    (subject : Option Str) (msg : Msg) (part fuel : Nat) (keys : List (Val F)) : Option Bool :=
  if subjectMatch x c m keys subject then some (true ^^ isNot)
  else
    match tr.filters x with
    | none => some (false ^^ isNot)
    | some fs => (walk (keep x fs) fuel msg [part] []).map fun l => partsResult x lib c m tr keys l ^^ isNot

end Sieve.Body
