/-
Model of `runtime/tests/glob.rs` (wildcard patterns used by `:matches`).

Strings are lists of characters.  Unicode case mapping is a parameter (`CaseMap`).
A `while` loop is a step function iterated with fuel; the fuel used by the exported
functions is shown sufficient in `GlobLemmas`, so `none` ("out of fuel") never occurs.
-/
namespace Sieve.Glob

/-- The Unicode case functions used by glob.rs: `char::is_uppercase`, `char::to_lowercase`
(possibly several characters) and `str::to_lowercase`. For `src/runtime/tests/glob.rs:69-254`. -/
structure CaseMap where
  isUpper : Char → Bool
  lower : Char → List Char
  strLower : List Char → List Char

/-- glob.rs:18-22 `PatternChar` without its `match_pos` field (kept in a parallel list). -/
inductive PChar where
  | many (num : Nat)
  | single
  | char (c : Char)
deriving DecidableEq, Repr

/-- glob.rs:51-57: the pattern items produced for a literal character. -/
def literal (cm : CaseMap) (toLower : Bool) (c : Char) : List PChar :=
  if toLower && cm.isUpper c then (cm.lower c).map PChar.char else [PChar.char c]

/-- glob.rs:25-66 `GlobPattern::compile`: `escaped` is `is_escaped`; a run of `*` is
collapsed into one `WildcardMany` carrying the run length. -/
def compileGo (cm : CaseMap) (toLower : Bool) (escaped : Bool) : List Char → List PChar
  | [] => []
  | c :: cs =>
    if c = '*' ∧ escaped = false then
      PChar.many (1 + (cs.takeWhile (· == '*')).length) ::
        compileGo cm toLower false (cs.dropWhile (· == '*'))
    else if c = '?' ∧ escaped = false then
      PChar.single :: compileGo cm toLower false cs
    else if c = '\\' ∧ escaped = false then
      compileGo cm toLower true cs
    else
      literal cm toLower c ++ compileGo cm toLower false cs
termination_by cs => cs.length
decreasing_by
  · have := (List.dropWhile_suffix (l := cs) (· == '*')).length_le
    simp only [List.length_cons]; omega
  · simp
  · simp
  · simp

/-- glob.rs:25 `GlobPattern::compile`. -/
def compile (cm : CaseMap) (pattern : List Char) (toLower : Bool) : List PChar :=
  compileGo cm toLower false pattern

/-- glob.rs:76-79: the loop variables `px`, `nx`, `next_px`, `next_nx`. -/
structure MState where
  px : Nat
  nx : Nat
  npx : Nat
  nnx : Nat
deriving DecidableEq, Repr

/-- glob.rs:105-110: restart after the last star, or give up. -/
def backtrack (v : List Char) (s : MState) : MState ⊕ Bool :=
  if 0 < s.nnx ∧ s.nnx ≤ v.length then .inl { s with px := s.npx, nx := s.nnx }
  else .inr false

/-- glob.rs:81-112: one iteration of the loop of `matches`. -/
def mstep (p : List PChar) (v : List Char) (s : MState) : MState ⊕ Bool :=
  if s.px < p.length ∨ s.nx < v.length then
    match p[s.px]? with
    | some (.char c) =>
      if v[s.nx]? = some c then .inl { s with px := s.px + 1, nx := s.nx + 1 }
      else backtrack v s
    | some .single =>
      if s.nx < v.length then .inl { s with px := s.px + 1, nx := s.nx + 1 }
      else backtrack v s
    | some (.many _) => .inl { px := s.px + 1, nx := s.nx, npx := s.px, nnx := s.nx + 1 }
    | none => backtrack v s
  else .inr true

/-- For `globMatches`, `glob.rs:69-113`. -/
def mrun (p : List PChar) (v : List Char) : Nat → MState → Option Bool
  | 0, _ => none
  | n + 1, s =>
    match mstep p v s with
    | .inl s' => mrun p v n s'
    | .inr b => some b

/-- Number of iterations that always suffices (shown in `GlobLemmas`).  For `globMatches`, `glob.rs:69-113`. -/
def fuel (p : List PChar) (v : List Char) : Nat :=
  2 * (v.length + 2) * (p.length + 2)

/-- glob.rs:69-113 `GlobPattern::matches`; `none` would mean non-termination. -/
def globMatches (cm : CaseMap) (toLower : Bool) (p : List PChar) (value : List Char) :
    Option Bool :=
  let v := if toLower then cm.strLower value else value
  mrun p v (fuel p v) ⟨0, 0, 0, 0⟩

/-- U+FFFD, `char::REPLACEMENT_CHARACTER`.  For `captureValue`, `glob.rs:121-142`. -/
def replacement : Char := Char.ofNat 0xFFFD

/-- glob.rs:121-142: the value as (compared character, original character) pairs. -/
def captureValue (cm : CaseMap) (toLower : Bool) (value : List Char) : List (Char × Char) :=
  if toLower then
    value.flatMap fun c =>
      if cm.isUpper c then
        match cm.lower c with
        | [] => []
        | l :: ls => (l, c) :: ls.map fun x => (x, replacement)
      else [(c, c)]
  else value.map fun c => (c, c)

/-- Loop state of `capture`: the loop variables and the `match_pos` fields.  For `cstep`, `glob.rs:149-182`. -/
structure CState where
  m : MState
  pos : List Nat
deriving Repr

/-- glob.rs:149-182: one iteration of the loop of `capture`.  The result `none` is `return
false`, `some pos` means the loop ended with these `match_pos` values. -/
def cstep (p : List PChar) (v : List (Char × Char)) (s : CState) : CState ⊕ Option (List Nat) :=
  let bt : CState ⊕ Option (List Nat) :=
    if 0 < s.m.nnx ∧ s.m.nnx ≤ v.length then
      .inl { s with m := { s.m with px := s.m.npx, nx := s.m.nnx } }
    else .inr none
  if s.m.px < p.length ∨ s.m.nx < v.length then
    match p[s.m.px]? with
    | some (.char c) =>
      if (v[s.m.nx]?).map Prod.fst = some c then
        .inl { m := { s.m with px := s.m.px + 1, nx := s.m.nx + 1 },
               pos := s.pos.set s.m.px s.m.nx }
      else bt
    | some .single =>
      if s.m.nx < v.length then
        .inl { m := { s.m with px := s.m.px + 1, nx := s.m.nx + 1 },
               pos := s.pos.set s.m.px s.m.nx }
      else bt
    | some (.many _) =>
      .inl { m := { px := s.m.px + 1, nx := s.m.nx, npx := s.m.px, nnx := s.m.nx + 1 },
             pos := s.pos.set s.m.px s.m.nx }
    | none => bt
  else .inr (some s.pos)

/-- For `globCapture`, `glob.rs:115-254`. -/
def crun (p : List PChar) (v : List (Char × Char)) : Nat → CState → Option (Option (List Nat))
  | 0, _ => none
  | n + 1, s =>
    match cstep p v s with
    | .inl s' => crun p v n s'
    | .inr r => some r

/-- lib.rs:23 `MAX_MATCH_VARIABLES`. -/
def maxMatchVariables : Nat := 63

/-- `capture_positions & (1 << i) != 0` on `u64`; in a release build the shift amount is
taken modulo 64.  For `starRun`, `glob.rs:196-202`. -/
def bit (cp : Nat) (i : Nat) : Bool := cp.testBit (i % 64)

/-- glob.rs:206-218: the original text of a range, without replacement characters. -/
def rangeText (v : List (Char × Char)) (a b : Nat) : List Char :=
  ((v.drop a).take (b - a)).filterMap fun x => if x.2 ≠ replacement then some x.2 else none

/-- glob.rs:196-202: a run of stars gives the empty string to all but the last star. -/
def starRun (cp : Nat) : Nat → Nat → List (Nat × List Char)
  | _, 0 => []
  | wp, n + 1 => (if bit cp wp then [(wp, [])] else []) ++ starRun cp (wp + 1) n

/-- glob.rs:191-252: the loop that extracts captured values.  `none` is the internal
failure branch (`return false`, glob.rs:220-221, 240-241). -/
def extract (v : List (Char × Char)) (cp : Nat) :
    List PChar → List Nat → (lastPos wp : Nat) → Option (List (Nat × List Char))
  | item :: items, mp :: mps, lastPos, wp =>
    if wp ≤ maxMatchVariables then
      match item with
      | .many num =>
        let wp' := wp + (num - 1)
        let head := starRun cp wp (num - 1)
        if bit cp wp' then
          if lastPos ≤ mp ∧ mp ≤ v.length then
            (extract v cp items mps (mp + 1) (wp' + 1)).map fun t =>
              head ++ (wp', rangeText v lastPos mp) :: t
          else none
        else (extract v cp items mps (mp + 1) (wp' + 1)).map (head ++ ·)
      | .single =>
        if bit cp wp then
          match v[mp]? with
          | some (c, o) =>
            (extract v cp items mps (mp + 1) (wp + 1)).map fun t =>
              (wp, [if o ≠ replacement then o else c]) :: t
          | none => none
        else extract v cp items mps (mp + 1) (wp + 1)
      | .char _ => extract v cp items mps (mp + 1) wp
    else some []
  | _, _, _, _ => some []

/-- glob.rs:115-254 `GlobPattern::capture`.  Outer `none`: out of fuel; inner `none`: the
function returned `false`; inner `some l`: it returned `true` and `captured_values = l`. -/
def globCapture (cm : CaseMap) (toLower : Bool) (p : List PChar) (value : List Char)
    (cp : Nat) : Option (Option (List (Nat × List Char))) :=
  let v := captureValue cm toLower value
  let fl := 2 * (v.length + 2) * (p.length + 2)
  match crun p v fl ⟨⟨0, 0, 0, 0⟩, List.replicate p.length 0⟩ with
  | none => none
  | some none => some none
  | some (some pos) =>
    some <| (extract v cp p pos 0 1).map fun t =>
      (if bit cp 0 then [(0, value)] else []) ++ t

end Sieve.Glob
