import Verif.BuildModel

/-!
# Converting parts

Model of `convert` (`src/runtime/actions/action_convert.rs:24-101`).

Simplifications.  `html_to_text` and `text_to_html` of mail-parser and the subtype a part has (`content_type()` and
`c_subtype`) are parameters; the arguments are evaluated already.  `Build.Part` does not tell text from HTML, so each part
comes with its kind here.  A subtraction below zero is a panic, the value `none`.
-/

namespace Sieve.Convert
open Sieve.Mime (Header)
open Sieve.Build (Bytes Val Part Content Msg Names ascii newField)

variable {N : Type}

/-- `PartType::Text`, `PartType::Html`, and the others.  For `converted`, `src/runtime/actions/action_convert.rs:54-79`. -/
inductive Kind where
  | text | html | other
deriving DecidableEq

/-- For `converted`, `src/runtime/actions/action_convert.rs:54-79`. -/
structure Lib (N : Type) where
  toHtml : Bytes → Bytes
  toText : Bytes → Bytes
  subtype : List (Header N Val) → Option Bytes

/-- `u8::to_ascii_lowercase`.  For `chosen`, `src/runtime/actions/action_convert.rs:31-51`. -/
def low (c : UInt8) : UInt8 := if 65 ≤ c && c ≤ 90 then c + 32 else c

/-- `eq_ignore_ascii_case`.  For `chosen`, `src/runtime/actions/action_convert.rs:31-51`. -/
def same (a b : Bytes) : Bool := a.map low == b.map low

/-- `Conversion`, `src/runtime/actions/action_convert.rs:16-21` -/
inductive Conv where
  | textToHtml | plainToHtml | htmlToText
deriving DecidableEq

/-- The conversion for two media types, `src/runtime/actions/action_convert.rs:31-51`. -/
def chosen (source target : Bytes) : Option Conv :=
  if same source target then none
  else if (same source (ascii "text") || (ascii "text/").isPrefixOf source) && same target (ascii "text/html") then
    if same source (ascii "text") then some .plainToHtml else some .textToHtml
  else if same source (ascii "text/html") && same target (ascii "text/plain") then some .htmlToText
  else none

/-- The new kind, text and media type of a part, if it is to be converted, `src/runtime/actions/action_convert.rs:54-79`. -/
def converted (x : Lib N) (v : Conv) (k : Kind) (p : Part N) : Option (Kind × Bytes × Bytes) :=
  match k, p.content, v with
  | .html, .text t, .htmlToText => some (.text, x.toText t, ascii "text/plain; charset=utf8")
  | .text, .text t, .textToHtml => some (.html, x.toHtml t, ascii "text/html; charset=utf8")
  | .text, .text t, .plainToHtml =>
    match x.subtype p.headers with
    | some s => if same s (ascii "plain") then some (.html, x.toHtml t, ascii "text/html; charset=utf8") else none
    | none => none
  | _, _, _ => none

/-- `part.body.len()`.  For `oldLen`, `src/runtime/actions/action_convert.rs:88-92`. -/
def bodyLen (p : Part N) : Nat := match p.content with | .text t => t.length | _ => 0

/-- What is subtracted from the size, `src/runtime/actions/action_convert.rs:88-92`; the subtraction of the offsets can be below zero. -/
def oldLen (p : Part N) : Option Nat :=
  if p.body ≠ 0 then if p.header ≤ p.stop then some (p.stop - p.header) else none else some (bodyLen p)

/-- The loop over the parts, `src/runtime/actions/action_convert.rs:53-97`: the parts, the size, and whether one was converted. -/
def convertParts (n : Names N) (x : Lib N) (v : Conv) : List (Kind × Part N) → Nat → Option (List (Kind × Part N) × Nat × Bool)
  | [], size => some ([], size, false)
  | (k, p) :: ps, size =>
    match converted x v k p with
    | none => (convertParts n x v ps size).map fun r => ((k, p) :: r.1, r.2.1, r.2.2)
    | some (k', body, ct) =>
      match oldLen p with
      | none => none
      | some old =>
        if size + ct.length + body.length + 16 < old then none
        else
          let q := Part.mk [newField (n.other (ascii "Content-Type")) (ascii "Content-Type") ct] p.header 0 p.stop true (.text body)
          (convertParts n x v ps (size + ct.length + body.length + 16 - old)).map fun r => ((k', q) :: r.1, r.2.1, true)

/-- The message, `message_size`, and `has_changes`.  For `convert`, `src/runtime/actions/action_convert.rs:24-101`. -/
structure Ctx (N : Type) where
  raw : Bytes
  parts : List (Kind × Part N)
  size : Nat
  changed : Bool

/-- See `src/runtime/actions/action_convert.rs:24-101`. -/
def Ctx.msg (c : Ctx N) : Msg N := ⟨c.raw, c.parts.map (·.2)⟩

/-- `Convert::exec`, `src/runtime/actions/action_convert.rs:24-101`. -/
def convert (n : Names N) (x : Lib N) (source target : Bytes) (isNot : Bool) (c : Ctx N) : Option (Bool × Ctx N) :=
  match chosen source target with
  | none => some (xor false isNot, c)
  | some v =>
    (convertParts n x v c.parts c.size).map fun r =>
      (xor r.2.2 isNot, { c with parts := r.1, size := r.2.1, changed := c.changed || r.2.2 })

end Sieve.Convert
