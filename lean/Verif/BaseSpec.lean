import Verif.SourceModel

/-!
# The base language as RFC 5228 describes it

What a script of the base language (`require`, `if`, `stop`, `keep`, `discard`, `fileinto`, `redirect`, `reject`, `set`, `notify`, `vacation`,
commands that change the message such as `addheader` and `deleteheader`, RFC 5293, tests that are answered at once or by the host) does to a message, defined on the structure of the script: blocks are carried out from the top to the bottom, the first
branch whose test is true is taken, tests have their logical value, and at the end the message is kept unless an action has cancelled
that.  No instructions, no positions, no queues, no state of an interpreter.

A script that uses anything else has no meaning here (`none`).
-/

namespace Sieve.Base

open Sieve.Vm Sieve.Compile Sieve.Source

variable {W V P A T E : Type} {cfg : Cfg W V P}

/-- Actions on the message, and questions to the host. -/
inductive Action (P : Type) where
  | keep (flags : List String)
  | discard
  | fileinto (copy : Bool) (folder : P) (flags : List String)
  | redirect (copy : Bool) (addr : P)
  | reject (reason : P)
  | ask (question : P)
  /-- the `id`-th message that the script makes is sent, and a copy of it filed -/
  | mail (kind : SendKind) (id : Nat) (message rcpt : P) (copy : Option (P × List String))
  /-- a notification by other means than mail; for a copy, the `id`-th message is made -/
  | notify (notice : P) (copy : Option (Nat × P × P × List String))
  /-- the message as the script has changed it is written down, as the `id`-th message that the script makes; this is the message that is
  kept, filed or redirected from now on -/
  | version (id : Nat) (message : P)
deriving DecidableEq

/-- The state of a script: what tests and arguments can see, the actions taken so far, what the host answers to the first, second,
… question, and whether the message was changed since it was written down. -/
structure State (W V P : Type) where
  view : View W V
  redirects : Nat
  acts : List (Action P)
  answers : Nat → Bool
  edited : Bool

/-- The number of questions. -/
def asked : List (Action P) → Nat
  | [] => 0
  | .ask _ :: l => asked l + 1
  | _ :: l => asked l

/-- The number of messages that the script has made. -/
def made : List (Action P) → Nat
  | [] => 0
  | .mail _ _ _ _ _ :: l => made l + 1
  | .notify _ (some _) :: l => made l + 1
  | .version _ _ :: l => made l + 1
  | _ :: l => made l

/-- The number of the message after an action, if it was `m` before. -/
def curStep (m : Nat) (a : Action P) : Nat := match a with | .version id _ => id | _ => m

/-- The number of the message that is kept, filed or redirected; 0 is the message as it was received. -/
def current (acts : List (Action P)) : Nat := acts.foldl curStep 0

/-! ## Tests -/

/-- The value of a single test. -/
def atomTruth (I : Interp cfg A T E) (s : State W V P) : Atom A T E → Option (Bool × State W V P)
  | .tru => some (true, s)
  | .fls => some (false, s)
  | .leaf t =>
    match I.test t s.view with
    | ⟨.bool b, mv, w, false⟩ => some (b, { s with view := { s.view with matchv := mv, world := w } })
    | ⟨.event p isNot, mv, w, false⟩ =>
      some (s.answers (asked s.acts) ^^ isNot, { s with view := { s.view with matchv := mv, world := w }, acts := s.acts ++ [.ask p] })
    | _ => none
  | .ev e =>
    match I.expr e s.view with
    | .done x w => some (cfg.toBool x, { s with view := { s.view with world := w } })
    | .call _ _ => none
  | .bad _ => none

mutual
/-- The value of a test, and the state afterwards (tests set match variables and ask the host). -/
def truth (I : Interp cfg A T E) : TestE A T E → State W V P → Option (Bool × State W V P)
  | .atom a, s => atomTruth I s a
  | .not e, s =>
    match truth I e s with
    | some (b, s) => some (!b, s)
    | none => none
  | .any l, s => truths I false l s
  | .all l, s => truths I true l s
/-- Tests are evaluated from left to right until one decides: a true one for `anyof`, a false one for `allof`. -/
def truths (I : Interp cfg A T E) (isAll : Bool) : Tests A T E → State W V P → Option (Bool × State W V P)
  | .one e, s => truth I e s
  | .cons e l, s =>
    match truth I e s with
    | some (b, s) => if b = isAll then truths I isAll l s else some (b, s)
    | none => none
end

/-! ## Commands -/

/-- May the message be sent to the address? -/
def MayRedirect (cfg : Cfg W V P) (s : State W V P) (list : Bool) (a : P) : Bool :=
  decide (s.redirects < cfg.maxRedirects) && decide (s.view.numOut < cfg.maxOut) &&
    decide (cfg.received s.view.world < cfg.maxReceived) && (list || !cfg.own s.view.world a)

/-- Before the message is kept, filed or redirected, the host is given the message as it is now, if it does not have it. -/
def writeDown (cfg : Cfg W V P) (s : State W V P) : State W V P :=
  if s.edited then { s with edited := false, acts := s.acts ++ [.version (made s.acts + 1) (cfg.render s.view.world)] } else s

/-- An action of a state is added. -/
def andDoes (s : State W V P) (a : Action P) : State W V P := { s with acts := s.acts ++ [a] }

/-- A message is sent. -/
def mail (s : State W V P) (kind : SendKind) (message rcpt : P) (copy : Option (P × List String)) : State W V P :=
  { s with acts := s.acts ++ [.mail kind (made s.acts + 1) message rcpt copy] }

/-- A notification by other means. -/
def notice (s : State W V P) (event plain : P) (fcc : Option (View W V → P × List String)) : State W V P :=
  { s with
    view := { s.view with numOut := s.view.numOut + 1 }
    acts := s.acts ++ [.notify event (fcc.map fun f => (made s.acts + 1, plain, f s.view))] }

/-- One command; the flag says whether the script ends. -/
def command (cfg : Cfg W V P) (s : State W V P) : Instr W V P → Option (State W V P × Bool)
  | .keep flags => some (andDoes (writeDown cfg s) (.keep (flags s.view)), false)
  | .discard => some ({ s with acts := s.acts ++ [.discard] }, false)
  | .stop => some (s, true)
  | .fileInto copy dest flags => some (andDoes (writeDown cfg s) (.fileinto copy (dest s.view) (flags s.view)), false)
  | .redirect list copy addr =>
    match addr s.view with
    | none => some (s, false)
    | some a =>
      if MayRedirect cfg s list a then
        some ({ andDoes (writeDown cfg s) (.redirect copy a) with
          view := { s.view with numOut := s.view.numOut + 1 }, redirects := s.redirects + 1 }, false)
      else some (s, false)
  | .reject reason => some ({ s with acts := s.acts ++ [.reject (reason s.view)] }, false)
  | .assign (.local i) f | .editFlags (.local i) f =>
    some ({ s with view := { s.view with locals := s.view.locals.set i (f s.view) } }, false)
  | .assign (.global g) f | .editFlags (.global g) f =>
    some ({ s with view := { s.view with world := g s.view.world (f s.view) } }, false)
  | .edit f => some ({ s with view := { s.view with world := (f s.view).1 }, edited := s.edited || (f s.view).2 }, false)
  | .notify f fcc =>
    match f s.view with
    | none => some (s, false)
    | some r =>
      match r.method with
      | .other => some (notice s r.event r.plain fcc, false)
      | .mailto m =>
        if s.view.numOut < cfg.maxOut then
          match m with
          | none => some (s, false)
          | some (rcpt, message) => some (mail s .notify message rcpt (fcc.map fun g => g s.view), false)
        else some (notice s r.event r.plain fcc, false)
  | .vacation f fcc =>
    some (mail { s with view := { s.view with numOut := s.view.numOut + 1 } } .vacation (f s.view).1 (f s.view).2 (fcc.map fun g => g s.view), false)
  | .require caps => if caps.all cfg.allowed then some (s, false) else none
  | .clear idx num mv =>
    if idx + num ≤ s.view.locals.length then
      some ({ s with view := { s.view with
        locals := s.view.locals.mapIdx fun i v => if idx ≤ i ∧ i < idx + num then cfg.empty else v
        matchv := s.view.matchv.mapIdx fun i v => if i ∈ mv then cfg.empty else v } }, false)
    else none
  | _ => none

/-- Commands one after the other. -/
def commands (I : Interp cfg A T E) : List A → State W V P → Option (State W V P × Bool)
  | [], s => some (s, false)
  | a :: as, s =>
    match command cfg s (I.act a) with
    | some (s, false) => commands I as s
    | r => r

/-- The end of a block. -/
def clear (I : Interp cfg A T E) (cl : Option A) (s : State W V P) : Option (State W V P × Bool) :=
  match cl with
  | none => some (s, false)
  | some a => command cfg s (I.act a)

/-- Something after something else, unless the script has ended. -/
def andThen (r : Option (State W V P × Bool)) (f : State W V P → Option (State W V P × Bool)) : Option (State W V P × Bool) :=
  match r with
  | some (s, false) => f s
  | r => r

mutual
def stmt (I : Interp cfg A T E) : Stmt A T E → State W V P → Option (State W V P × Bool)
  | .act is, s => commands I is s
  | .cond c, s => chain I c s
  | .ret, s => some (s, true)
  | .vac t a, s =>
    match atomTruth I s (.leaf t) with
    | some (true, s) => command cfg s (I.act a)
    | some (false, s) => some (s, false)
    | none => none
  | _, _ => none
def block (I : Interp cfg A T E) : Blk A T E → State W V P → Option (State W V P × Bool)
  | .nil, s => some (s, false)
  | .cons st b, s => andThen (stmt I st s) (block I b)
/-- The first branch whose test is true. -/
def chain (I : Interp cfg A T E) : Chain A T E → State W V P → Option (State W V P × Bool)
  | .one t b cl, s =>
    match truth I t s with
    | some (true, s) => andThen (block I b s) (clear I cl)
    | some (false, s) => some (s, false)
    | none => none
  | .els t b cl e cl', s =>
    match truth I t s with
    | some (true, s) => andThen (block I b s) (clear I cl)
    | some (false, s) => andThen (block I e s) (clear I cl')
    | none => none
  | .elif t b cl c, s =>
    match truth I t s with
    | some (true, s) => andThen (block I b s) (clear I cl)
    | some (false, s) => chain I c s
    | none => none
end

/-- Before the script: no variable has a value. -/
def initial (cfg : Cfg W V P) (w : W) (vars mvars : Nat) (answers : Nat → Bool) : State W V P where
  view := { world := w, locals := List.replicate vars cfg.empty, matchv := List.replicate mvars cfg.empty, part := 0
            inLoop := false, numOut := 0 }
  redirects := 0
  acts := []
  answers := answers
  edited := false

/-- The actions of a script, and what can be seen at its end. -/
def outcome (I : Interp cfg A T E) (b : Blk A T E) (w : W) (vars mvars : Nat) (answers : Nat → Bool) : Option (State W V P) :=
  (block I b (initial cfg w vars mvars answers)).map Prod.fst

/-! ## Where the message goes -/

/-- The deliveries that are made at once and the questions, as the host sees them, while the message is the one with number `m`. -/
def sentFrom (m : Nat) : List (Action P) → List (Event P)
  | [] => []
  | .fileinto _ folder flags :: l => .fileInto folder flags m :: sentFrom m l
  | .redirect _ a :: l => .send .redirect a m :: sentFrom m l
  | .reject reason :: l => .reject reason :: sentFrom m l
  | .ask question :: l => .query question :: sentFrom m l
  | .mail kind id message rcpt copy :: l =>
    .created id message :: .send kind rcpt id :: ((copy.toList.map fun k => .fileInto k.1 k.2 id) ++ sentFrom m l)
  | .notify event none :: l => .notify event :: sentFrom m l
  | .notify event (some (id, message, folder, flags)) :: l =>
    .created id message :: .notify event :: .fileInto folder flags id :: sentFrom m l
  | .version id message :: l => .created id message :: sentFrom id l
  | _ :: l => sentFrom m l

/-- The same from the beginning; 0 is the message as it was received. -/
def sent (acts : List (Action P)) : List (Event P) := sentFrom 0 acts

/-- Actions that cancel the implicit keep, RFC 5228, 2.10.2; RFC 3894; RFC 5429, 2.1. -/
def Cancels : Action P → Prop
  | .keep _ => True
  | .discard => True
  | .fileinto copy _ _ => copy = false
  | .redirect copy _ => copy = false
  | .reject _ => True
  | .ask _ => False
  | .mail _ _ _ _ _ => False
  | .notify _ _ => False
  | .version _ _ => False

/-- The message is kept, with the flags `fl`: by the last `keep`, or because nothing has cancelled the implicit keep. -/
inductive Kept (acts : List (Action P)) : List String → Prop where
  | explicit {a b fl} : acts = a ++ .keep fl :: b → (∀ f, .keep f ∉ b) → Kept acts fl
  | implicit : (∀ x ∈ acts, ¬ Cancels x) → Kept acts []

/-- No action after a `keep` cancels the implicit keep. -/
def KeepsLast (acts : List (Action P)) : Prop :=
  ∀ a fl b, acts = a ++ .keep fl :: b → ∀ x ∈ b, Cancels x → ∃ f, x = .keep f

/-- Actions after which it is not enough to discard the message: it is kept, filed or rejected. -/
def Undoes : Action P → Prop
  | .keep _ => True
  | .fileinto copy _ _ => copy = false
  | .reject _ => True
  | _ => False

/-- The message is discarded: the last word on it is a `discard`. -/
def Discarded (acts : List (Action P)) : Prop := ∃ a b, acts = a ++ .discard :: b ∧ ∀ x ∈ b, ¬ Undoes x

/-- The flags with which the message is kept. -/
def keptFlags (cfg : Cfg W V P) (s : State W V P) (fl : List String) : List String := if fl = [] then cfg.globalFlags s.view.world else fl

/-- What the host is told when the message is kept: by `keep`, the message as it was then, by the implicit keep, as it is at the end. -/
inductive KeptAs (cfg : Cfg W V P) (s : State W V P) : List (Event P) → Prop where
  | explicit {a b fl} : s.acts = a ++ .keep fl :: b → (∀ f, .keep f ∉ b) → KeptAs cfg s [.keep (keptFlags cfg s fl) (current a)]
  | implicit : (∀ x ∈ s.acts, ¬ Cancels x) → s.edited = false → KeptAs cfg s [.keep (keptFlags cfg s []) (current s.acts)]
  | changed : (∀ x ∈ s.acts, ¬ Cancels x) → s.edited = true →
      KeptAs cfg s [.created (made s.acts + 1) (cfg.render s.view.world), .keep (keptFlags cfg s []) (made s.acts + 1)]

/-- The message is not changed after a `keep` without being filed or redirected afterwards; and if it is kept only by the implicit keep and
was changed, then it is also changed after it was last filed or redirected. -/
structure UpToDate (s : State W V P) : Prop where
  explicit : ∀ fl, .keep fl ∈ s.acts → s.edited = false
  implicit : (∀ x ∈ s.acts, ¬ Cancels x) → s.edited = true ∨ current s.acts = 0

/-- What the host is told at the end: to keep the message exactly if it is kept, that it is discarded exactly if it is, otherwise
nothing. -/
structure Last (cfg : Cfg W V P) (s : State W V P) (l : List (Event P)) : Prop where
  keep : ∀ l', KeptAs cfg s l' → l = l'
  discard : Discarded s.acts → l = [.discard]
  other : (¬ ∃ fl, Kept s.acts fl) → ¬ Discarded s.acts → l = []

end Sieve.Base
