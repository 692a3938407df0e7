/-
Model of `runtime/tests/mime.rs` (part iteration), `find_headers` of
`runtime/tests/test_header.rs` and of `runtime/actions/action_editheader.rs`.

A message is its list of parts.  Header names are elements of a type with decidable equality
(`HeaderName`'s case-insensitive `PartialEq`); header values are opaque.
-/
namespace Sieve.Mime

/-- mail_parser `Header`: the name, and everything else as an opaque value.  For `scan`, `src/runtime/tests/test_header.rs:241-255`. -/
structure Header (N V : Type) where
  name : N
  value : V
deriving DecidableEq

/-- mail_parser `PartType`, keeping what the iteration looks at.  For `next`, `mime.rs:38-57`. -/
inductive Body where
  | multipart (subparts : List Nat)
  | other
deriving DecidableEq

/-- mail_parser `MessagePart`.  For `next`, `mime.rs:38-57`. -/
structure Part (N V : Type) where
  headers : List (Header N V)
  body : Body
deriving DecidableEq

variable {N V : Type}

/-- mime.rs:38-57 `SubpartIterator::next`: `it` is `iter`, the second list `iter_stack` (top
first).  A part id without a part ends the iteration. -/
def next (parts : List (Part N V)) (anychild : Bool) :
    List Nat → List (List Nat) → Option (Nat × List Nat × List (List Nat))
  | id :: it, st =>
    match parts[id]? with
    | none => none
    | some p =>
      match p.body with
      | .multipart subs => if anychild then some (id, subs, it :: st) else some (id, it, st)
      | .other => some (id, it, st)
  | [], [] => none
  | [], it :: st => next parts anychild it st

/-- The ids returned by calling `next` until it returns `None`; `none` = still running after
`fuel` calls.  For `findHeaders`, `src/runtime/tests/test_header.rs:215-275`. -/
def visit (parts : List (Part N V)) (anychild : Bool) :
    Nat → List Nat → List (List Nat) → Option (List Nat)
  | 0, _, _ => none
  | fuel + 1, it, st =>
    match next parts anychild it st with
    | none => some []
    | some (id, it', st') => (visit parts anychild fuel it' st').map (id :: ·)

/-- mime.rs:139-180, the loop of `find_nested_parts_ids`: ids are pushed whether or not the part
exists. -/
def nestedGo (parts : List (Part N V)) : Nat → List Nat → List (List Nat) → Option (List Nat)
  | 0, _, _ => none
  | fuel + 1, id :: it, st =>
    (match parts[id]?.map Part.body with
      | some (.multipart subs) => nestedGo parts fuel subs (it :: st)
      | _ => nestedGo parts fuel it st).map (id :: ·)
  | fuel + 1, [], it :: st => nestedGo parts fuel it st
  | _ + 1, [], [] => some []

/-- mime.rs:139-180 `find_nested_parts_ids`. -/
def findNestedPartsIds (parts : List (Part N V)) (part : Nat) (includeCurrent : Bool) (fuel : Nat) :
    Option (List Nat) :=
  if part = 0 then
    if includeCurrent then some (List.range parts.length)
    else if 1 < parts.length then some (List.range' 1 (parts.length - 1))
    else some []
  else
    (match parts[part]?.map Part.body with
      | some (.multipart subs) => nestedGo parts fuel subs []
      | _ => some []).map ((if includeCurrent then [part] else []) ++ ·)

variable [DecidableEq N]

/-- src/runtime/tests/test_header.rs:241-255: forward scan for the `index`-th header called `name`; `count` is
`header_count`. -/
def scan (name : N) (index : Int) : List (Header N V × Nat) → Int → Option (Header N V × Nat)
  | [], _ => none
  | (h, pos) :: hs, count =>
    if h.name = name then
      if count + 1 = index then some (h, pos) else scan name index hs (count + 1)
    else scan name index hs count

/-- src/runtime/tests/test_header.rs:230-271: the headers of one part handed to the visitor, for one header name
(with their positions). -/
def selectHeaders (headers : List (Header N V)) (index : Option Int) (name : N) :
    List (Header N V × Nat) :=
  match index with
  | none => headers.zipIdx.filter fun h => h.1.name = name
  | some i =>
    if 0 ≤ i then (scan name i headers.zipIdx 0).toList
    else (scan name (-i) headers.zipIdx.reverse 0).toList

/-- src/runtime/tests/test_header.rs:215-275 `find_headers` for a visitor that never stops the search: the visited
(header, part id, position) triples in order. -/
def findHeaders (parts : List (Part N V)) (part : Nat) (names : List N) (index : Option Int)
    (anychild : Bool) (fuel : Nat) : Option (List (Header N V × Nat × Nat)) :=
  (visit parts anychild fuel [part] []).map fun ids =>
    ids.flatMap fun id =>
      match parts[id]? with
      | none => []
      | some p => names.flatMap fun name =>
          (selectHeaders p.headers index name).map fun h => (h.1, id, h.2)

/-- src/runtime/actions/action_editheader.rs:124-128: remove one header; `none` is an index panic. -/
def removeHeader (parts : List (Part N V)) (id pos : Nat) : Option (List (Part N V)) :=
  match parts[id]? with
  | none => none
  | some p =>
    if pos < p.headers.length then
      some (parts.set id { p with headers := p.headers.eraseIdx pos })
    else none

/-- src/runtime/actions/action_editheader.rs:122-129: remove the collected headers, last one first. -/
def removeAll (parts : List (Part N V)) : List (Nat × Nat) → Option (List (Part N V))
  | [] => some parts
  | (id, pos) :: rest => do
    let parts ← removeAll parts rest
    removeHeader parts id pos

/-- src/runtime/actions/action_editheader.rs:53-132 `DeleteHeader::exec` for a parsed header name; `matchValue` is the
value test (constant true without value patterns). `message_size` is not modelled. -/
def deleteHeader (prot : N → Bool) (parts : List (Part N V)) (part : Nat) (name : N)
    (index : Option Int) (anychild : Bool) (matchValue : Header N V → Bool) (fuel : Nat) :
    Option (List (Part N V)) :=
  if prot name then some parts
  else do
    let found ← findHeaders parts part [name] index anychild fuel
    removeAll parts ((found.filter fun h => matchValue h.1).map fun h => (h.2.1, h.2.2))

/-- src/runtime/actions/action_editheader.rs:158-185 `insert_header`; `none` is an index panic. -/
def insertHeader (parts : List (Part N V)) (part : Nat) (h : Header N V) (last : Bool) :
    Option (List (Part N V)) :=
  match parts[part]? with
  | none => none
  | some p =>
    some (parts.set part { p with headers := if last then p.headers ++ [h] else h :: p.headers })

/-- src/runtime/actions/action_editheader.rs:22-50 `AddHeader::exec`.  `alnum` is `char::is_alphanumeric`, `parse` is
`HeaderName::parse`, `value` the value after `remove_crlf`. -/
def addHeader (prot : N → Bool) (alnum : Char → Bool) (parse : List Char → Option N)
    (parts : List (Part N V)) (part : Nat) (nameText : List Char) (value : V) (last : Bool) :
    Option (List (Part N V)) :=
  let clean := nameText.filter fun c => alnum c || c == '-'
  if clean = [] then some parts
  else match parse clean with
    | none => some parts
    | some name => if prot name then some parts else insertHeader parts part ⟨name, value⟩ last

end Sieve.Mime
