import Mathlib.Data.List.Sort
import Verif.Prelude
import Verif.MimeModel

/-!
# Writing the message

Model of `build_message` (`src/runtime/actions/action_mime.rs:398-566`), of the actions that change the message,
`addheader` and `deleteheader` (`src/runtime/actions/action_editheader.rs`), `replace` and `enclose`
(`src/runtime/actions/action_mime.rs:26-330`), and of the size they keep (`message_size`).

Simplifications.  What `mail_parser` finds in a message (parts, header fields and their offsets) is given, not
computed.  Offsets are natural numbers.  Text is given by its bytes.  Slices outside the message, missing parts and
subtractions below zero in `deleteheader` are panics, the value `none`.
-/

namespace Sieve.Build
open Sieve.Mime (Header)

/-- For `line`, `src/runtime/actions/action_mime.rs:428-457`. -/
abbrev Bytes := List UInt8

/-- For `line`, `src/runtime/actions/action_mime.rs:428-457`. -/
def ascii (s : String) : Bytes := s.toList.map fun c => c.toNat.toUInt8

/-- For `line`, `src/runtime/actions/action_mime.rs:428-457`. -/
def crlf : Bytes := [13, 10]

/-- What a header field has besides its name in mail_parser's `Header`: `name.as_str()`, `value.as_text()` (empty if
there is none), `offset_field`, `offset_start`, `offset_end`.  For `line`, `src/runtime/actions/action_mime.rs:428-457`. -/
structure Val where
  spelling : Bytes
  text : Bytes
  field : Nat
  start : Nat
  stop : Nat
deriving DecidableEq

mutual
/-- mail_parser `MessagePart`: `headers`, `offset_header`, `offset_body`, `offset_end`, `encoding != None`, `body`.
For `before`, `src/runtime/actions/action_mime.rs:412-424`. -/
inductive Part (N : Type) where
  | mk (headers : List (Header N Val)) (header body stop : Nat) (encoded : Bool) (content : Content N)
/-- mail_parser `PartType`: texts with their `contents()`, multiparts and enclosed messages.
For `replace`, `src/runtime/actions/action_mime.rs:26-159`. -/
inductive Content (N : Type) where
  | text (t : Bytes)
  | multipart (subs : List Nat)
  | message (raw : Bytes) (parts : List (Part N))
end

variable {N : Type}

/-- For `visit`, `src/runtime/actions/action_mime.rs:408-524`. -/
def Part.headers : Part N → List (Header N Val) | .mk hs _ _ _ _ _ => hs
/-- For `before`, `src/runtime/actions/action_mime.rs:412-424`. -/
def Part.header : Part N → Nat | .mk _ h _ _ _ _ => h
/-- For `visit`, `src/runtime/actions/action_mime.rs:408-524`. -/
def Part.body : Part N → Nat | .mk _ _ b _ _ _ => b
/-- For `line`, `src/runtime/actions/action_mime.rs:428-457`. -/
def Part.stop : Part N → Nat | .mk _ _ _ s _ _ => s
/-- For `visit`, `src/runtime/actions/action_mime.rs:408-524`. -/
def Part.encoded : Part N → Bool | .mk _ _ _ _ e _ => e
/-- For `visit`, `src/runtime/actions/action_mime.rs:408-524`. -/
def Part.content : Part N → Content N | .mk _ _ _ _ _ c => c
/-- For `deleteHeader`, `src/runtime/actions/action_editheader.rs:53-136`. -/
def Part.withHeaders : Part N → List (Header N Val) → Part N | .mk _ h b s e c, hs => .mk hs h b s e c

/-- mail_parser `Message`.  For `Item`, `src/runtime/actions/action_mime.rs:376-380`. -/
structure Msg (N : Type) where
  raw : Bytes
  parts : List (Part N)

/-- `&raw[a..b]`.  For `line`, `src/runtime/actions/action_mime.rs:428-457`. -/
def slice (raw : Bytes) (a b : Nat) : Option Bytes :=
  if a ≤ b ∧ b ≤ raw.length then some ((raw.take b).drop a) else none

/-- A header field as it is written, `src/runtime/actions/action_mime.rs:428-457`. -/
def line (raw : Bytes) (h : Header N Val) : Option Bytes :=
  if h.value.stop ≠ 0 then
    if h.value.field ≠ h.value.start then slice raw h.value.field h.value.stop
    else (slice raw h.value.start h.value.stop).map fun v => h.value.spelling ++ ascii ":" ++ v
  else some (h.value.spelling ++ ascii ": " ++ h.value.text ++ crlf)

/-- For `visit`, `src/runtime/actions/action_mime.rs:408-524`. -/
def lines (raw : Bytes) : List (Header N Val) → Option (List Bytes)
  | [] => some []
  | h :: hs => do
    let l ← line raw h
    let ls ← lines raw hs
    return l :: ls

/-- `str::split_once`.  For `boundary`, `src/runtime/actions/action_mime.rs:499-510`. -/
def splitOnce (pat : Bytes) : Bytes → Option (Bytes × Bytes)
  | [] => if pat = [] then some ([], []) else none
  | c :: cs =>
    if pat.isPrefixOf (c :: cs) then some ([], (c :: cs).drop pat.length)
    else (splitOnce pat cs).map fun r => (c :: r.1, r.2)

/-- The text of the last new header field with the name `ct` (`ct_pos`), `src/runtime/actions/action_mime.rs:446-448`. -/
def contentType [DecidableEq N] (ct : N) (hs : List (Header N Val)) : Option Bytes :=
  ((hs.filter fun h => h.value.stop = 0 ∧ h.name = ct).getLast?).map fun h => h.value.text

/-- `src/runtime/actions/action_mime.rs:499-510` -/
def boundary (t : Option Bytes) : Bytes :=
  match t with
  | none => ascii "invalid-boundary"
  | some t =>
    match splitOnce (ascii "boundary=\"") t with
    | none => ascii "invalid-boundary"
    | some (_, r) =>
      match splitOnce (ascii "\"") r with
      | none => ascii "invalid-boundary"
      | some (b, _) => b

/-- `StackItem`, `src/runtime/actions/action_mime.rs:376-380` -/
inductive Item (N : Type) where
  | message (m : Msg N)
  | boundary (b : Bytes)
  | none

/-- An element of `iter_stack`; of the part only `offset_end` is used.  For `before`, `src/runtime/actions/action_mime.rs:412-424`. -/
structure Frame (N : Type) where
  item : Item N
  stop : Nat
  iter : List Nat

/-- The local variables of `build_message`.  For `before`, `src/runtime/actions/action_mime.rs:412-424`. -/
structure State (N : Type) where
  cur : Msg N
  bnd : Bytes
  out : Bytes
  iter : List Nat
  stack : List (Frame N)
  last : Nat

/-- For `before`, `src/runtime/actions/action_mime.rs:412-424`. -/
def topIsMessage : List (Frame N) → Bool
  | ⟨.message _, _, _⟩ :: _ => true
  | _ => false

/-- What is written before a part, `src/runtime/actions/action_mime.rs:412-424`. -/
def before (s : State N) (p : Part N) : Option Bytes :=
  if 0 < s.last then slice s.cur.raw s.last p.header
  else if s.bnd ≠ [] ∧ p.stop = 0 ∧ topIsMessage s.stack = false then some (crlf ++ ascii "--" ++ s.bnd ++ crlf)
  else some []

/-- The rest of the raw message, `raw_message.get(last_offset..)`.  For `leave`, `src/runtime/actions/action_mime.rs:526-563`. -/
def remainder (raw : Bytes) (last : Nat) : Bytes := if 0 < last then raw.drop last else []

variable [DecidableEq N]

/-- The body of the inner loop, `src/runtime/actions/action_mime.rs:408-524`. -/
def visit (ct : N) (s : State N) (p : Part N) (it : List Nat) : Option (State N) := do
  let pre ← before s p
  let ls ← lines s.cur.raw p.headers
  let out := s.out ++ pre ++ ls.flatten ++ (if p.body ≠ 0 ∨ p.encoded = true then crlf else [])
  if p.body ≠ 0 then
    match p.content with
    | .multipart subs =>
      some { s with out := out, iter := subs, stack := ⟨.none, p.stop, it⟩ :: s.stack, last := p.body }
    | _ => do
      let b ← slice s.cur.raw p.body p.stop
      some { s with out := out ++ b, iter := it, last := p.stop }
  else
    match p.content with
    | .message raw parts =>
      some { s with cur := ⟨raw, parts⟩, out := out, iter := [0], stack := ⟨.message s.cur, p.stop, it⟩ :: s.stack }
    | .multipart subs =>
      some { s with bnd := boundary (contentType ct p.headers), out := out, iter := subs,
                    stack := ⟨.boundary s.bnd, p.stop, it⟩ :: s.stack }
    | .text t => some { s with out := out ++ t, iter := it, last := p.stop }

/-- The end of a list of parts, `src/runtime/actions/action_mime.rs:526-563`: the next state or the message. -/
def leave (s : State N) : Option (State N ⊕ Bytes) :=
  match s.stack with
  | [] => some (.inr (s.out ++ remainder s.cur.raw s.last))
  | ⟨.message m, _, it⟩ :: st =>
    some (.inl { s with cur := m, out := s.out ++ remainder s.cur.raw s.last, iter := it, stack := st, last := 0 })
  | ⟨.boundary b, _, it⟩ :: st =>
    some (.inl { s with bnd := b, iter := it, stack := st,
                        out := s.out ++ if s.bnd ≠ [] then crlf ++ ascii "--" ++ s.bnd ++ ascii "--" ++ crlf else [] })
  | ⟨.none, stop, it⟩ :: st =>
    match slice s.cur.raw s.last stop with
    | none => none
    | some b => some (.inl { s with out := s.out ++ b, iter := it, stack := st, last := stop })

/-- One round of the loop.  A part that does not exist ends the list of parts.  For `build`, `src/runtime/actions/action_mime.rs:398-566`. -/
def step (ct : N) (s : State N) : Option (State N ⊕ Bytes) :=
  match s.iter with
  | [] => leave s
  | id :: it =>
    match s.cur.parts[id]? with
    | none => leave s
    | some p => (visit ct s p it).map .inl

/-- The loop: `none` if it did not end after `fuel` rounds, `some none` for a panic.
For `build`, `src/runtime/actions/action_mime.rs:398-566`. -/
def loop (ct : N) : Nat → State N → Option (Option Bytes)
  | 0, _ => none
  | fuel + 1, s =>
    match step ct s with
    | none => some none
    | some (.inr b) => some (some b)
    | some (.inl s) => loop ct fuel s

/-- `build_message`, `src/runtime/actions/action_mime.rs:398-566`; `ct` is the name `Content-Type`. -/
def build (ct : N) (fuel : Nat) (m : Msg N) : Option (Option Bytes) :=
  loop ct fuel ⟨m, [], [], [0], [], 0⟩

/-! ## Actions -/

/-- The message and `message_size`.  For `deleteHeader`, `src/runtime/actions/action_editheader.rs:53-136`. -/
structure Ctx (N : Type) where
  msg : Msg N
  size : Nat

/-- For `deleteHeader`, `src/runtime/actions/action_editheader.rs:53-136`. -/
def Content.mime : Content N → Mime.Body
  | .multipart subs => .multipart subs
  | _ => .other

/-- A part as `MimeModel` sees it.  For `deleteHeader`, `src/runtime/actions/action_editheader.rs:53-136`. -/
def Part.mime (p : Part N) : Mime.Part N Val := ⟨p.headers, p.content.mime⟩

/-- For `deleteHeader`, `src/runtime/actions/action_editheader.rs:53-136`. -/
def Msg.mime (m : Msg N) : List (Mime.Part N Val) := m.parts.map Part.mime

/-- The message with the headers of the given parts.  For `deleteHeader`, `src/runtime/actions/action_editheader.rs:53-136`. -/
def Msg.withHeaders (m : Msg N) (ps : List (Mime.Part N Val)) : Msg N :=
  { m with parts := List.zipWith (fun p q => p.withHeaders q.headers) m.parts ps }

/-- The number of bytes `deleteheader` takes off for a header field, `src/runtime/actions/action_editheader.rs:111-115`. -/
def fieldSize (h : Header N Val) : Option Nat :=
  if h.value.stop ≠ 0 then
    if h.value.field ≤ h.value.stop then some (h.value.stop - h.value.field) else none
  else some (h.value.spelling.length + h.value.text.length + 4)

/-- For `deleteHeader`, `src/runtime/actions/action_editheader.rs:53-136`. -/
def sum : List (Option Nat) → Option Nat
  | [] => some 0
  | a :: as => do return (← a) + (← sum as)

/-- `DeleteHeader::exec`, `src/runtime/actions/action_editheader.rs:53-136` -/
def deleteHeader (prot : N → Bool) (c : Ctx N) (part : Nat) (name : N) (index : Option Int) (anychild : Bool)
    (matchValue : Header N Val → Bool) (fuel : Nat) : Option (Ctx N) :=
  if prot name then some c
  else do
    let found ← Mime.findHeaders c.msg.mime part [name] index anychild fuel
    let n ← sum ((found.filter fun h => matchValue h.1).map fun h => fieldSize h.1)
    let ps ← Mime.deleteHeader prot c.msg.mime part name index anychild matchValue fuel
    if n ≤ c.size then some ⟨c.msg.withHeaders ps, c.size - n⟩ else none

/-- A header field made by `insert_header`, `src/runtime/actions/action_editheader.rs:158-173` -/
def newField (name : N) (spelling text : Bytes) : Header N Val := ⟨name, ⟨spelling, text, 0, 0, 0⟩⟩

/-- `insert_header`, `src/runtime/actions/action_editheader.rs:158-185` -/
def insertHeader (c : Ctx N) (part : Nat) (name : N) (spelling text : Bytes) (last : Bool) : Option (Ctx N) := do
  let ps ← Mime.insertHeader c.msg.mime part (newField name spelling text) last
  return ⟨c.msg.withHeaders ps, c.size + (spelling.length + text.length + 4)⟩

/-- The header names `replace` looks at, by `match` on the constructors of `HeaderName`, `src/runtime/actions/action_mime.rs:66-90`. -/
inductive Kind where
  | subject | «from» | date | recipient | other
deriving DecidableEq

/-- `HeaderName` and the functions the actions use: `other` is `HeaderName::Other`, `parse` is `HeaderName::parse`,
`prot` whether a name is among the protected headers, `clean` is `remove_crlf`.
For `addHeader`, `src/runtime/actions/action_editheader.rs:22-50`. -/
structure Names (N : Type) where
  other : Bytes → N
  parse : Bytes → Option N
  prot : N → Bool
  clean : Bytes → Bytes
  date : N
  «from» : N
  messageId : N
  kind : Header N Val → Kind

/-- `AddHeader::exec`, `src/runtime/actions/action_editheader.rs:22-50`; `name` is the name after other characters have been removed. -/
def addHeader (x : Names N) (c : Ctx N) (part : Nat) (name value : Bytes) (last : Bool) : Option (Ctx N) :=
  if name = [] then some c
  else
    match x.parse name with
    | none => some c
    | some n => if x.prot n then some c else insertHeader c part n name (x.clean value) last

/-- The arguments of `replace` after evaluation: text, `:mime`, `:subject`, `:from`, and the values for `From`, `Date` and
`Message-ID`.  For `keepField`, `src/runtime/actions/action_mime.rs:64-92`. -/
structure Replacement where
  body : Bytes
  mime : Bool
  subject : Option Bytes
  «from» : Option Bytes
  user : Bytes
  now : Bytes
  id : Bytes

/-- A header field with another name, `src/runtime/actions/action_mime.rs:69-82`. -/
def renamed (x : Names N) (h : Header N Val) (name : Bytes) : Header N Val :=
  ⟨x.other name, { h.value with spelling := name, field := h.value.start }⟩

/-- What becomes of a header field of the message when the message is replaced, `src/runtime/actions/action_mime.rs:64-92`. -/
def keepField (x : Names N) (r : Replacement) (h : Header N Val) : Option (Header N Val) :=
  match x.kind h with
  | .subject => some (if r.subject.isSome then renamed x h (ascii "Original-Subject") else h)
  | .from => some (if r.from.isSome then renamed x h (ascii "Original-From") else h)
  | .date => some h
  | .recipient => some h
  | .other => none

/-- What is added to the size for it.  For `replace`, `src/runtime/actions/action_mime.rs:26-159`. -/
def keepSize (x : Names N) (r : Replacement) (h : Header N Val) : Nat :=
  match x.kind h with
  | .subject => (h.value.stop - h.value.field) + (if r.subject.isSome then 9 else 0)
  | .from => (h.value.stop - h.value.field) + (if r.from.isSome then 9 else 0)
  | .date => h.value.stop - h.value.field
  | .recipient => h.value.stop - h.value.field
  | .other => 0

/-- The new header fields of a replaced message, `src/runtime/actions/action_mime.rs:94-152`. -/
def replaceFields (x : Names N) (r : Replacement) (old : List (Header N Val)) : List (Bytes × Bytes) :=
  [(ascii "From", match r.from with
    | some f => if f = [] then r.user else x.clean f
    | none => r.user)]
  ++ (match r.subject with
    | some s => if s = [] then [] else [(ascii "Subject", x.clean s)]
    | none => [])
  ++ (if old.any (fun h => x.kind h = .date) then [] else [(ascii "Date", r.now)])
  ++ [(ascii "Message-ID", r.id)]

/-- `Vec::remove`, which panics if there is no such part.  For `removeParts`, `src/runtime/actions/action_mime.rs:29-33`. -/
def removePart (parts : List (Part N)) (id : Nat) : Option (List (Part N)) :=
  if id < parts.length then some (parts.eraseIdx id) else none

/-- The parts inside the replaced part are removed, the last one first, `src/runtime/actions/action_mime.rs:29-33`. -/
def removeParts (parts : List (Part N)) (ids : List Nat) : Option (List (Part N)) :=
  (ids.insertionSort (fun a b => b ≤ a)).foldlM removePart parts

/-- `Replace::exec`, `src/runtime/actions/action_mime.rs:26-159`.  Subtractions below zero in the size are left out (the size is then 0). -/
def replace (x : Names N) (c : Ctx N) (part : Nat) (r : Replacement) (fuel : Nat) : Option (Ctx N) := do
  let nested ← Mime.findNestedPartsIds c.msg.mime part false fuel
  let parts ← removeParts c.msg.parts nested
  let p ← parts[part]?
  let old := if p.body ≠ 0 then p.stop - p.header else match p.content with | .text t => t.length | _ => 0
  let kept := if part = 0 then p.headers.filterMap (keepField x r) else []
  let new := (if part = 0 then replaceFields x r p.headers else [])
    ++ if r.mime then [] else [(ascii "Content-Type", ascii "text/plain; charset=utf-8")]
  let size := c.size + r.body.length - old + (if part = 0 then (p.headers.map (keepSize x r)).sum else 0)
    + (new.map fun f => f.1.length + f.2.length + 4).sum
  let q := Part.mk (kept ++ new.map fun f => newField (x.other f.1) f.1 f.2) p.header 0 p.stop (!r.mime) (.text r.body)
  return ⟨{ c.msg with parts := parts.set part q }, size⟩

/-- A header field given to `enclose` after it was split at the colon and trimmed, and whether it is used,
`src/runtime/actions/action_mime.rs:246-290`. -/
def accepted (x : Names N) (f : Bytes × Bytes) : Option N :=
  if f.2 = [] then none
  else
    match x.parse f.1 with
    | none => none
    | some n => if x.prot n then none else some n

/-- The arguments of `enclose` after evaluation: text, `:subject`, the subject of the message as `mail_parser` decodes it,
the new boundary, `:headers`, and the values for `From`, `Date` and `Message-ID`.
For `subjectOf`, `src/runtime/actions/action_mime.rs:166-176`. -/
structure Enclosure where
  body : Bytes
  given : Option Bytes
  original : Option Bytes
  bnd : Bytes
  fields : List (Bytes × Bytes)
  user : Bytes
  now : Bytes
  id : Bytes

/-- `src/runtime/actions/action_mime.rs:166-176` -/
def subjectOf (x : Names N) (e : Enclosure) : Bytes :=
  match e.given with
  | some s => x.clean s
  | none => e.original.getD []

/-- `Enclose::exec`, `src/runtime/actions/action_mime.rs:168-323` -/
def enclose (x : Names N) (c : Ctx N) (e : Enclosure) : Ctx N :=
  let field (name text : Bytes) : Header N Val := newField (x.other name) name text
  let size (hs : List (Header N Val)) : Nat := (hs.map fun h => h.value.spelling.length + h.value.text.length + 4).sum
  let given := e.fields.filter fun f => (accepted x f).isSome
  let has (n : N) : Bool := given.any fun f => accepted x f = some n
  let h0 := [field (ascii "Content-Type") (ascii "multipart/mixed; boundary=\"" ++ e.bnd ++ ascii "\""), field (ascii "Subject") (subjectOf x e)]
    ++ given.map (fun f => field f.1 (x.clean f.2))
    ++ (if has x.from then [] else [field (ascii "From") e.user])
    ++ (if has x.date then [] else [field (ascii "Date") e.now])
    ++ (if has x.messageId then [] else [field (ascii "Message-ID") e.id])
  let h1 := [field (ascii "Content-Type") (ascii "text/plain; charset=utf-8")]
  let h2 := [field (ascii "Content-Type") (ascii "message/rfc822")]
  ⟨⟨[], [.mk h0 0 0 0 false (.multipart [1, 2]), .mk h1 0 0 0 true (.text e.body),
      .mk h2 0 0 0 true (.message c.msg.raw c.msg.parts)]⟩,
    c.size + (((e.bnd.length + 6) * 3) + e.body.length + 2) + size h0 + size h1 + size h2⟩

end Sieve.Build
