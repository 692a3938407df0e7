import Verif.MatchVarModel

/-!
# What match variables should be

RFC 5229, section 3.2: a match variable is a text captured by the last successful match, and empty if there is no such
text or there has been no match.  The code follows this under conditions on the place where the variable is written;
`sem` is the meaning of a script with the way variables are read as a parameter: `rfc` reads them as prescribed,
`guarded` as prescribed if the conditions hold, and not at all otherwise.
-/

namespace Sieve.MatchVar

open Sieve.SetVar (Variable)

/-- A place in the text of a script.  `kinds` are the tests and commands with a match type that end before it (`true`
for a test); `blocks` are those that begin before it, for each block around the place, the innermost first. -/
structure Place where
  kinds : List Bool
  blocks : List (List Nat)

/-- After the match type of the next test or command. -/
def Place.note (p : Place) : Place :=
  match p.blocks with
  | [] => p
  | b :: bs => { p with blocks := (b ++ [p.kinds.length]) :: bs }

def Place.done (p : Place) (k : Bool) : Place := { p with kinds := p.kinds ++ [k] }

def Place.enter (p : Place) : Place := { p with blocks := [] :: p.blocks }

def Place.leave (p : Place) : Place := { p with blocks := p.blocks.tail }

section
variable {W : Type}

def afterAtom (a : Atom W Nat Bool) (p : Place) : Place := if a.tag then p.note.done true else p

def afterCond : Cond W Nat Bool → Place → Place
  | .atom a, p => afterAtom a p
  | .not c, p => afterCond c p
  | .and c d, p => afterCond d (afterCond c p)
  | .or c d, p => afterCond d (afterCond c p)

/-- The place after a statement. -/
def after : Stmt W → Place → Place
  | .skip, p => p
  | .seq a b, p => after b (after a p)
  | .act _ _, p => p
  | .delete _ _, p => p.note.done false
  | .ite c a b, p => after b (after a (afterCond c p))
  | .block a _, p => (after a p.enter).leave
  | .loop _ _ a, p => after a p
  | .exit _, p => p

/-- The last successful match: the number of the test, what it captured, and whether no block with tests that have a
match type came to its end since. -/
structure Success where
  test : Nat
  caps : List Str
  fresh : Bool

abbrev Read := Place → Option Success → Nat → Option Variable

/-- As prescribed. -/
def rfc : Read := fun _ l n =>
  match l with
  | none => some (.str [])
  | some s =>
    match s.caps[n]? with
    | some t => some (.str t)
    | none => some (.str [])

/-- As prescribed, provided that there was no match at all, or: the last successful match was by a test that begins
before the variable in the innermost of the blocks around it that have any; all of these are tests and end before
it; no block with such tests came to its end since; and there is a text of this number. -/
def guarded : Read := fun p l n =>
  match l with
  | none => some (.str [])
  | some s =>
    match p.blocks.find? (fun b => !b.isEmpty) with
    | none => none
    | some b =>
      if s.fresh ∧ s.test ∈ b ∧ ∀ t ∈ b, p.kinds[t]? = some true then s.caps[n]?.map .str else none

def reads (rd : Read) (p : Place) (l : Option Success) : List Nat → Option (List Variable)
  | [] => some []
  | n :: ns => do
    let v ← rd p l n
    let vs ← reads rd p l ns
    return v :: vs

def semAtom (rd : Read) (a : Atom W Nat Bool) (p : Place) (w : W) (l : Option Success) : Option (W × Option Success × Bool) := do
  let us ← reads rd p l a.pre
  let vs ← reads rd (if a.tag then p.note else p) l a.post
  match a.f w (us ++ vs) with
  | (w, none) => return (w, l, false)
  | (w, some caps) => return (w, if a.tag then some ⟨p.kinds.length, caps, true⟩ else l, true)

def semCond (rd : Read) : Cond W Nat Bool → Place → W → Option Success → Option (W × Option Success × Bool)
  | .atom a, p, w, l => semAtom rd a p w l
  | .not c, p, w, l => do
    let (w, l, b) ← semCond rd c p w l
    return (w, l, !b)
  | .and c d, p, w, l =>
    match semCond rd c p w l with
    | some (w, l, true) => semCond rd d (afterCond c p) w l
    | r => r
  | .or c d, p, w, l =>
    match semCond rd c p w l with
    | some (w, l, false) => semCond rd d (afterCond c p) w l
    | r => r

def ended (b : Option (List Nat)) (l : Option Success) : Option Success :=
  match b with
  | some (_ :: _) => l.map fun s => { s with fresh := false }
  | _ => l

/-- The meaning of a script, bounded by a step counter. -/
def sem (rd : Read) : Nat → Stmt W → Place → W → Option Success → Option (W × Option Success × Exit)
  | 0, _, _, _, _ => none
  | _ + 1, .skip, _, w, l => some (w, l, .normal)
  | n + 1, .seq a b, p, w, l =>
    match sem rd n a p w l with
    | some (w, l, .normal) => sem rd n b (after a p) w l
    | r => r
  | _ + 1, .act us f, p, w, l => (reads rd p l us).map fun vs => (f w vs, l, .normal)
  | _ + 1, .delete us f, p, w, l => (reads rd p.note l us).map fun vs => (f w vs, l, .normal)
  | n + 1, .ite c a b, p, w, l =>
    match semCond rd c p w l with
    | some (w, l, true) => sem rd n a (afterCond c p) w l
    | some (w, l, false) => sem rd n b (after a (afterCond c p)) w l
    | none => none
  | n + 1, .block a _, p, w, l =>
    match sem rd n a p.enter w l with
    | some (w, l, .normal) => some (w, ended (after a p.enter).blocks.head? l, .normal)
    | r => r
  | n + 1, .loop us g a, p, w, l =>
    match reads rd p l us with
    | none => none
    | some vs =>
      match g w vs with
      | (w, false) => some (w, l, .normal)
      | (w, true) =>
        match sem rd n a p w l with
        | some (w, l, .brk) => some (w, l, .normal)
        | some (w, l, _) => sem rd n (.loop us g a) p w l
        | none => none
  | _ + 1, .exit again, _, w, l => some (w, l, if again then .cont else .brk)

def Place.start : Place := ⟨[], [[]]⟩

/-- What becomes of the state. -/
def meaning (rd : Read) (fuel : Nat) (s : Stmt W) (w : W) : Option W := (sem rd fuel s .start w none).map (·.1)

end

end Sieve.MatchVar
