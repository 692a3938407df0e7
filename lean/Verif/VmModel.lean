import Verif.Prelude

/-!
# The interpreter: `Context::run` and the actions it executes

Model of `src/runtime/context.rs:34-476` (`Context::new`, `run`, `finish_loop`) together with the
`exec` functions of the actions that touch the interpreter state
(`src/runtime/actions/action_{fileinto,redirect,include,notify,vacation,mime,set}.rs`).

What is abstracted.

* `W` is everything the interpreter core only passes around: the message with its parts, global
  variables, the envelope, the expression stack and `expr_pos`, metadata, spam status.
* `V` is the type of variables, `P` the type of opaque payloads (folder names, addresses, message
  bytes, host queries, error texts).
* An instruction that evaluates tests, expressions or strings carries the *function* that its
  evaluation denotes (over the `View` of the state that evaluation may look at).  The theorems
  therefore hold for every behaviour of tests, expressions and interpolated strings.
* `usize` counters are `Nat` (no overflow of 64-bit counters).
* Events carry one ghost field, `SendKind`, which records the action a `SendMessage` stems from.
-/

namespace Sieve.Vm

/-- Script names, `src/lib.rs:120-124` (`Script::Personal` / `Script::Global`). -/
structure Name where
  global : Bool
  str : String
deriving DecidableEq, Repr

/-- Capabilities as far as `Require` distinguishes them, `src/runtime/context.rs:390-403`:
`Capability::Other(name)` or one of the known ones. -/
inductive Cap where
  | other (name : String)
  | known (name : String)
deriving DecidableEq, Repr

/-- Ghost: which action a `SendMessage` event stems from.  For `Event`, `src/lib.rs:183-247`. -/
inductive SendKind where
  | redirect | vacation | notify
deriving DecidableEq, Repr

/-- `Event`, `src/lib.rs:183-247` (`enum Event`).  `query` stands for all the events a test may delegate to
the host (`MailboxExists`, `ListContains`, `DuplicateId`, `Plugin`…). -/
inductive Event (P : Type) where
  | keep (flags : List String) (id : Nat)
  | discard
  | reject (p : P)
  | fileInto (p : P) (flags : List String) (id : Nat)
  | send (k : SendKind) (p : P) (id : Nat)
  | created (id : Nat) (content : P)
  | notify (p : P)
  | includeScript (name : Name) (optional : Bool)
  | query (p : P)
  | function (p : P)
  | setEnvelope (p : P)
deriving DecidableEq, Repr

/-- `RuntimeError`, `src/runtime/mod.rs:46-53` (`enum RuntimeError`). -/
inductive Err (P : Type) where
  | cpuLimit
  | tooManyIncludes
  | capNotSupported (name : String)
  | capNotAllowed (c : Cap)
  | script (p : P)
  | invalid (p : P)
  | test (p : P)
deriving DecidableEq, Repr

/-- What `run` returns: `Some(Ok(event))`, `Some(Err(error))` or `None`.  For `finish`, `src/runtime/context.rs:412-440`. -/
inductive Out (P : Type) where
  | event (e : Event P)
  | error (e : Err P)
  | none
deriving DecidableEq, Repr

/-- The part of the state that tests, expressions and strings are evaluated in.
For `Instr`, `src/compiler/grammar/instruction.rs:48-109`. -/
structure View (W V : Type) where
  world : W
  locals : List V
  matchv : List V
  part : Nat
  inLoop : Bool
  numOut : Nat

/-- `TestResult`, `src/runtime/tests/mod.rs:32-36` (`enum TestResult`). -/
inductive TestRes (P : Type) where
  | bool (b : Bool)
  | event (p : P) (isNot : Bool)
  | error (p : P)

/-- Everything `Test::exec` may do: the result, new match variables (`set_match_variables`), a new
message and whether it was changed (`Test::Convert`).  For `Instr`, `src/compiler/grammar/instruction.rs:48-109`. -/
structure TestOut (W V P : Type) where
  res : TestRes P
  matchv : List V
  world : W
  changed : Bool

/-- `eval_expression`, `src/runtime/expression.rs:16-105`: a value, or a host function call to be
resumed. -/
inductive ExprOut (W V P : Type) where
  | done (v : V) (w : W)
  | call (p : P) (w : W)

/-- Assignment targets, `set_variable`, `src/runtime/actions/action_set.rs:43-58`. -/
inductive Target (W V P : Type) where
  | local (i : Nat)
  | global (f : W → V → W)
  | envelope (f : W → V → W × P)
  | other

/-- What `Notify::exec` computes from the evaluated arguments,
`src/runtime/actions/action_notify.rs:21-49`.  `mailto none` is a `mailto:` URI that
`parse_mailto` rejects; `mailto (some (recipients, message))` one that it accepts. -/
inductive Method (P : Type) where
  | mailto (parsed : Option (P × P))
  | other

/-- For `Instr`, `src/compiler/grammar/instruction.rs:48-109`. -/
structure NotifyReq (P : Type) where
  method : Method P
  /-- message built when only a carbon copy is filed -/
  plain : P
  /-- contents of the `Notify` event -/
  event : P

/-- `Instruction`, `src/compiler/grammar/instruction.rs:48-109`.  `edit` stands for `Replace`,
`Enclose`, `AddHeader`, `DeleteHeader` and `Convert`; its function returns the new message and
whether `has_changes` was set.  `assign` stands for `Set` and `ExtractText` (which return a queued
event at once), `editFlags` for `EditFlags` (which does not). -/
inductive Instr (W V P : Type) where
  | jz (target : Nat)
  | jnz (target : Nat)
  | jmp (target : Nat)
  | test (f : View W V → TestOut W V P)
  | eval (f : View W V → ExprOut W V P)
  | clear (idx num : Nat) (matchVars : List Nat)
  | keep (flags : View W V → List String)
  | fileInto (copy : Bool) (dest : View W V → P) (flags : View W V → List String)
  | redirect (list copy : Bool) (addr : View W V → Option P)
  | discard
  | stop
  | reject (reason : View W V → P)
  | forEveryPart (jz : Nat)
  | forEveryPartPush
  | forEveryPartPop (n : Nat)
  | while (f : View W V → ExprOut W V P) (jz : Nat)
  | let_ (t : Target W V P) (f : View W V → ExprOut W V P)
  | edit (f : View W V → W × Bool)
  | assign (t : Target W V P) (f : View W V → V)
  | editFlags (t : Target W V P) (f : View W V → V)
  | notify (f : View W V → Option (NotifyReq P)) (fcc : Option (View W V → P × List String))
  | vacation (f : View W V → P × P) (fcc : Option (View W V → P × List String))
  | include (once optional : Bool) (name : View W V → Option Name)
  | return_
  | require (caps : List Cap)
  | error (f : View W V → P)
  | invalid (p : P)

/-- `Sieve`, `src/lib.rs:35-39` (`struct Sieve`). -/
structure Script (W V P : Type) where
  instrs : List (Instr W V P)
  numVars : Nat
  numMatchVars : Nat

/-- `ScriptStack`, `src/runtime/context.rs:24-30`. -/
structure Frame (W V P : Type) where
  script : Script W V P
  prevPos : Nat
  prevLocals : List V
  prevMatch : List V

/-- `Runtime` (`src/lib.rs:69-94`) and the functions of the message the interpreter core needs. -/
structure Cfg (W V P : Type) where
  cpuLimit : Nat
  maxRedirects : Nat
  maxOut : Nat
  maxReceived : Nat
  maxIncludes : Nat
  allowed : Cap → Bool
  /-- `runtime.include_scripts` -/
  registered : String → Option (Script W V P)
  /-- number of `Received` headers of the message -/
  received : W → Nat
  /-- `address.eq_ignore_ascii_case(user_address)` -/
  own : W → P → Bool
  /-- `find_nested_parts_ids` (see `MimeModel`) -/
  nested : W → Nat → Bool → List Nat
  /-- `get_global_flags` -/
  globalFlags : W → List String
  /-- `build_message` -/
  render : W → P
  toBool : V → Bool
  isEmpty : V → Bool
  empty : V
  /-- `expr_stack.push` -/
  pushResult : W → V → W

/-- `Context`, `src/lib.rs:97-138`; the script stack has its top first. -/
structure Ctx (W V P : Type) where
  pos : Nat
  testResult : Bool
  stack : List (Frame W V P)
  cache : List (Name × Script W V P)
  world : W
  locals : List V
  matchv : List V
  part : Nat
  partIter : List Nat
  partStack : List (Nat × List Nat)
  final : Option (Event P)
  queue : List (Event P)
  hasChanges : Bool
  numRedirects : Nat
  numInstr : Nat
  numOut : Nat
  lastId : Nat
  mainId : Nat

/-- `Input`, `src/lib.rs:290-295` (`enum Input`). -/
inductive Input (W V P : Type) where
  | true
  | false
  | fncResult (v : V)
  | script (name : Name) (s : Script W V P)

variable {W V P : Type}

/-- `Context::new`, `src/runtime/context.rs:34-77`.  The real start position is `usize::MAX`; it is
never read before a script is pushed, and only restored when the stack is empty. -/
def Ctx.new (w : W) : Ctx W V P where
  pos := 2 ^ 64 - 1
  testResult := false
  stack := []
  cache := []
  world := w
  locals := []
  matchv := []
  part := 0
  partIter := []
  partStack := []
  final := some (.keep [] 0)
  queue := []
  hasChanges := false
  numRedirects := 0
  numInstr := 0
  numOut := 0
  lastId := 0
  mainId := 0

/-- For `execFileInto`, `src/runtime/actions/action_fileinto.rs:10-38`. -/
def Ctx.view (c : Ctx W V P) : View W V :=
  ⟨c.world, c.locals, c.matchv, c.part, !c.partStack.isEmpty, c.numOut⟩

/-- Result of one pass through the interpreter loop: go on, or return to the host.
For `finish`, `src/runtime/context.rs:412-440`. -/
inductive Step (W V P : Type) where
  | cont (c : Ctx W V P)
  | ret (o : Out P) (c : Ctx W V P)

/-- `MAX_MATCH_VARIABLES` (63), `MAX_LOCAL_VARIABLES` (256): `src/lib.rs:23-24`. -/
def maxMatchVars : Nat := 63
/-- For `applyInput`, `src/runtime/context.rs:82-114`. -/
def maxLocalVars : Nat := 256

/-- Pushing a script: `src/runtime/context.rs:98-110` and `341-354`. -/
def pushScript (cfg : Cfg W V P) (c : Ctx W V P) (s : Script W V P) : Ctx W V P :=
  { c with
    stack := ⟨s, c.pos, c.locals, c.matchv⟩ :: c.stack
    locals := List.replicate s.numVars cfg.empty
    matchv := List.replicate s.numMatchVars cfg.empty
    pos := 0 }

/-- The effect of the host's input, `src/runtime/context.rs:82-114`.  A script with too many
variables is silently ignored. -/
def applyInput (cfg : Cfg W V P) (c : Ctx W V P) : Input W V P → Ctx W V P
  | .true => { c with testResult := c.testResult ^^ Bool.true }
  | .false => { c with testResult := c.testResult ^^ Bool.false }
  | .fncResult v => { c with world := cfg.pushResult c.world v }
  | .script n s =>
    if s.numMatchVars ≤ maxMatchVars ∧ s.numVars ≤ maxLocalVars then
      { pushScript cfg { c with cache := (n, s) :: c.cache } s with testResult := Bool.false }
    else c

/-- `script_cache.get`: the most recently inserted script of that name.
For `execInclude`, `src/runtime/actions/action_include.rs:22-52`. -/
def lookup (cache : List (Name × Script W V P)) (n : Name) : Option (Script W V P) :=
  (cache.find? (fun x => x.1 = n)).map Prod.snd

/-- `build_message_id`, `src/runtime/actions/action_mime.rs:383-396`: the announced event (as a list
of length 0 or 1) and the new state. -/
def buildMessageId (cfg : Cfg W V P) (c : Ctx W V P) : List (Event P) × Ctx W V P :=
  if c.hasChanges then
    ([.created (c.lastId + 1) (cfg.render c.world)],
      { c with lastId := c.lastId + 1, mainId := c.lastId + 1, hasChanges := false })
  else ([], c)

/-- Flags of the final keep: explicit ones, or else the global ones,
`src/runtime/context.rs:424-427`, `451-454`. -/
def keepFlags (cfg : Cfg W V P) (w : W) (flags : List String) : List String :=
  if flags.isEmpty && !(cfg.globalFlags w).isEmpty then cfg.globalFlags w else flags

/-- The events of the final disposition and the state afterwards (`final_event` taken):
the common part of `src/runtime/context.rs:412-440` and `443-476`. -/
def settle (cfg : Cfg W V P) (c : Ctx W V P) : List (Event P) × Ctx W V P :=
  match c.final with
  | some (.keep flags id) =>
    let b := buildMessageId cfg { c with final := none }
    match b.1 with
    | [] => ([.keep (keepFlags cfg c.world flags) id], b.2)
    | ev => (ev ++ [.keep (keepFlags cfg c.world flags) b.2.mainId], b.2)
  | some e => ([e], { c with final := none })
  | none => ([], c)

/-- Leaving the loop normally, `src/runtime/context.rs:412-440`: the first event is returned, a
second one is queued (replacing the queue). -/
def finish (cfg : Cfg W V P) (c : Ctx W V P) : Step W V P :=
  match settle cfg c with
  | ([], c') => .ret .none c'
  | ([e], c') => .ret (.event e) c'
  | (e :: es, c') => .ret (.event e) { c' with queue := es }

/-- `finish_loop`, `src/runtime/context.rs:443-476`: drop all scripts and queue the disposition. -/
def finishLoop (cfg : Cfg W V P) (c : Ctx W V P) : Ctx W V P :=
  match settle cfg { c with stack := [] } with
  | ([], c') => c'
  | (es, c') => { c' with queue := es }

/-- Returning the next queued event if there is one (`queued_events.next()`).
For `exec`, `src/runtime/context.rs:128-408`. -/
def drain (c : Ctx W V P) : Step W V P :=
  match c.queue with
  | [] => .cont c
  | e :: q => .ret (.event e) { c with queue := q }

/-- `set_variable` after truncation, `src/runtime/actions/action_set.rs:43-75`. -/
def setTarget (c : Ctx W V P) (t : Target W V P) (v : V) : Ctx W V P :=
  match t with
  | .local i => { c with locals := c.locals.set i v }
  | .global f => { c with world := f c.world v }
  | .envelope f => { c with world := (f c.world v).1, queue := [.setEnvelope (f c.world v).2] }
  | .other => c

/-- `FileInto::exec`, `src/runtime/actions/action_fileinto.rs:10-38`. -/
def execFileInto (cfg : Cfg W V P) (c : Ctx W V P) (copy : Bool) (dest : View W V → P)
    (flags : View W V → List String) : Ctx W V P :=
  let b := buildMessageId cfg c
  let fin := match b.2.final with
    | some (.keep (f :: fs) i) => some (Event.keep (f :: fs) i)
    | e => if copy then e else none
  { b.2 with final := fin, queue := b.1 ++ [.fileInto (dest c.view) (flags c.view) b.2.mainId] }

/-- `Redirect::exec`, `src/runtime/actions/action_redirect.rs:14-83`.  `addr` is the sanitized
address (see `AddressModel.sanitizeAddress`). -/
def execRedirect (cfg : Cfg W V P) (c : Ctx W V P) (list copy : Bool)
    (addr : View W V → Option P) : Ctx W V P :=
  match addr c.view with
  | none => c
  | some a =>
    if c.numRedirects < cfg.maxRedirects ∧ c.numOut < cfg.maxOut
        ∧ cfg.received c.world < cfg.maxReceived then
      if !list && cfg.own c.world a then c
      else
        let fin := match c.final with
          | some (.keep fs i) => if copy then some (.keep fs i) else none
          | e => e
        let b := buildMessageId cfg { c with final := fin }
        { b.2 with
          numRedirects := b.2.numRedirects + 1
          numOut := b.2.numOut + 1
          queue := b.1 ++ [.send .redirect a b.2.mainId] }
    else c

/-- The carbon copy of `vacation` and `notify`.  For `execVacation`, `src/runtime/actions/action_vacation.rs:163-336`. -/
def fccEvents (c : Ctx W V P) (fcc : Option (View W V → P × List String)) (id : Nat) :
    List (Event P) :=
  match fcc with
  | none => []
  | some f => [.fileInto (f c.view).1 (f c.view).2 id]

/-- `Vacation::exec`, `src/runtime/actions/action_vacation.rs:163-336`. -/
def execVacation (c : Ctx W V P) (f : View W V → P × P)
    (fcc : Option (View W V → P × List String)) : Ctx W V P :=
  { c with
    lastId := c.lastId + 1
    numOut := c.numOut + 1
    queue := [.created (c.lastId + 1) (f c.view).1, .send .vacation (f c.view).2 (c.lastId + 1)]
      ++ fccEvents c fcc (c.lastId + 1) }

/-- `Notify::exec`, `src/runtime/actions/action_notify.rs:21-283`. -/
def execNotify (cfg : Cfg W V P) (c : Ctx W V P) (f : View W V → Option (NotifyReq P))
    (fcc : Option (View W V → P × List String)) : Ctx W V P :=
  match f c.view with
  | none => c
  | some r =>
    match r.method, decide (c.numOut < cfg.maxOut) with
    | .mailto none, Bool.true => c
    | .mailto (some (rcpt, msg)), Bool.true =>
      { c with
        lastId := c.lastId + 1
        queue := [.created (c.lastId + 1) msg, .send .notify rcpt (c.lastId + 1)]
          ++ fccEvents c fcc (c.lastId + 1) }
    | _, _ =>
      match fcc with
      | none => { c with numOut := c.numOut + 1, queue := [.notify r.event] }
      | some g =>
        { c with
          lastId := c.lastId + 1
          numOut := c.numOut + 1
          queue := [.created (c.lastId + 1) r.plain, .notify r.event,
            .fileInto (g c.view).1 (g c.view).2 (c.lastId + 1)] }

/-- `IncludeResult`, `src/runtime/actions/action_include.rs:15-20`. -/
inductive IncRes (W V P : Type) where
  | cached (s : Script W V P)
  | event (n : Name) (optional : Bool)
  | error
  | none

/-- `Include::exec`, `src/runtime/actions/action_include.rs:22-52`. -/
def execInclude (cfg : Cfg W V P) (c : Ctx W V P) (once optional : Bool)
    (name : View W V → Option Name) : IncRes W V P :=
  match name c.view with
  | .none => .none
  | some n =>
    if !once || (lookup c.cache n).isNone then
      if c.stack.length < cfg.maxIncludes then
        match (lookup c.cache n).or (cfg.registered n.str) with
        | some s => .cached s
        | .none => .event n optional
      else .error
    else .none

/-- `Require`, `src/runtime/context.rs:390-403`: the first capability that is not allowed. -/
def missingCap (cfg : Cfg W V P) (caps : List Cap) : Option Cap :=
  caps.find? (fun k => !cfg.allowed k)

/-- For `exec`, `src/runtime/context.rs:128-408`. -/
def capError : Cap → Err P
  | .other n => .capNotSupported n
  | .known n => .capNotAllowed (.known n)

/-- `ForEveryPartPop(n)`, `src/runtime/context.rs:268-283`. -/
def popParts : Nat → Ctx W V P → Ctx W V P
  | 0, c => c
  | n + 1, c =>
    match c.partStack with
    | [] => c
    | (p, it) :: rest => popParts n { c with part := p, partIter := it, partStack := rest }

/-- Replace the non-empty variables at positions satisfying `p` by the empty variable.
For `execClear`, `src/runtime/context.rs:177-197`. -/
def clearAt (cfg : Cfg W V P) (p : Nat → Bool) (vs : List V) : List V :=
  vs.mapIdx (fun i v => if p i && !cfg.isEmpty v then cfg.empty else v)

/-- `Clear`, `src/runtime/context.rs:177-197` and `clear_match_variables`,
`src/runtime/variables.rs:22-34`.  The slice `get_mut(idx..idx+num)` fails as a whole if it is out
of range. -/
def execClear (cfg : Cfg W V P) (c : Ctx W V P) (idx num : Nat) (mv : List Nat) : Ctx W V P :=
  { c with
    locals := if idx + num ≤ c.locals.length then
        clearAt cfg (fun i => idx ≤ i && i < idx + num) c.locals else c.locals
    matchv := clearAt cfg (fun i => mv.contains i) c.matchv }

/-- Leaving the current script (end of its instructions, or `return`):
`src/runtime/context.rs:405-415`. -/
def leave (cfg : Cfg W V P) (c : Ctx W V P) : Step W V P :=
  match c.stack with
  | [] => finish cfg c
  | fr :: rest =>
    let c' := { c with stack := rest, pos := fr.prevPos, locals := fr.prevLocals,
                       matchv := fr.prevMatch }
    if rest.isEmpty then finish cfg c' else .cont c'

/-- One instruction, `src/runtime/context.rs:128-408`, in a state whose instruction counter has been
increased and whose position is already the next one. -/
def exec (cfg : Cfg W V P) (c : Ctx W V P) : Instr W V P → Step W V P
  | .jz t => .cont (if c.testResult then c else { c with pos := t })
  | .jnz t => .cont (if c.testResult then { c with pos := t } else c)
  | .jmp t => .cont { c with pos := t }
  | .test f =>
    let r := f c.view
    let c := { c with world := r.world, matchv := r.matchv, hasChanges := c.hasChanges || r.changed }
    match r.res with
    | .bool b => .cont { c with testResult := b }
    | .event p isNot => .ret (.event (.query p)) { c with testResult := isNot }
    | .error p => .ret (.error (.test p)) (finishLoop cfg c)
  | .eval f =>
    match f c.view with
    | .done v w => .cont { c with world := w, testResult := cfg.toBool v }
    | .call p w => .ret (.event (.function p)) { c with world := w, pos := c.pos - 1 }
  | .clear idx num mv => .cont (execClear cfg c idx num mv)
  | .keep flags =>
    let b := buildMessageId cfg c
    let c' := { b.2 with final := some (.keep (flags c.view) b.2.mainId) }
    match b.1 with
    | [] => .cont c'
    | e :: _ => .ret (.event e) c'
  | .fileInto copy dest flags => drain (execFileInto cfg c copy dest flags)
  | .redirect list copy addr => drain (execRedirect cfg c list copy addr)
  | .discard => .cont { c with final := some .discard }
  | .stop => finish cfg { c with stack := [] }
  | .reject f => .ret (.event (.reject (f c.view))) { c with final := none }
  | .forEveryPart jz =>
    match c.partIter with
    | p :: it => .cont { c with part := p, partIter := it }
    | [] =>
      match c.partStack with
      | (p, it) :: rest =>
        .cont { c with part := p, partIter := it, partStack := rest, pos := jz }
      | [] => .cont { c with part := 0 }
  | .forEveryPartPush =>
    .cont { c with
      partIter := cfg.nested c.world c.part c.partStack.isEmpty
      partStack := (c.part, c.partIter) :: c.partStack }
  | .forEveryPartPop n => .cont (popParts n c)
  | .while f jz =>
    match f c.view with
    | .done v w =>
      .cont (if cfg.toBool v then { c with world := w } else { c with world := w, pos := jz })
    | .call p w => .ret (.event (.function p)) { c with world := w, pos := c.pos - 1 }
  | .let_ t f =>
    match f c.view with
    | .done v w => .cont (setTarget { c with world := w } t v)
    | .call p w => .ret (.event (.function p)) { c with world := w, pos := c.pos - 1 }
  | .edit f =>
    .cont { c with world := (f c.view).1, hasChanges := c.hasChanges || (f c.view).2 }
  | .assign t f => drain (setTarget c t (f c.view))
  | .editFlags t f => .cont (setTarget c t (f c.view))
  | .notify f fcc => drain (execNotify cfg c f fcc)
  | .vacation f fcc => drain (execVacation c f fcc)
  | .include once optional name =>
    match execInclude cfg c once optional name with
    | .cached s => .cont (pushScript cfg c s)
    | .event n o => .ret (.event (.includeScript n o)) c
    | .error => .ret (.error .tooManyIncludes) (finishLoop cfg c)
    | .none => .cont c
  | .return_ => leave cfg c
  | .require caps =>
    match missingCap cfg caps with
    | none => .cont c
    | some k => .ret (.error (capError k)) (finishLoop cfg c)
  | .error f => .ret (.error (.script (f c.view))) (finishLoop cfg c)
  | .invalid p => .ret (.error (.invalid p)) (finishLoop cfg c)

/-- The instruction about to be executed.  See `runtime/context.rs:124-441`. -/
def fetch (c : Ctx W V P) : Option (Instr W V P) :=
  match c.stack with
  | [] => none
  | fr :: _ => fr.script.instrs[c.pos]?

/-- One pass through the loop `src/runtime/context.rs:121-416`: fetch and execute, or leave the
script at the end of its instructions.  A position beyond the end makes `instructions.get(pos..)?`
return `None` from `run`; the code checks that when it jumps and when it resumes a script, the model
at the next pass. -/
def step (cfg : Cfg W V P) (c : Ctx W V P) : Step W V P :=
  match c.stack with
  | [] => .ret .none c
  | fr :: _ =>
    match fr.script.instrs[c.pos]? with
    | none => if fr.script.instrs.length < c.pos then .ret .none c else leave cfg c
    | some i =>
      if cfg.cpuLimit < c.numInstr + 1 then
        .ret (.error .cpuLimit) (finishLoop cfg { c with numInstr := c.numInstr + 1 })
      else exec cfg { c with numInstr := c.numInstr + 1, pos := c.pos + 1 } i

/-- `src/runtime/context.rs:116-122`: queued events first, then nothing to do without a script. -/
def enter (c : Ctx W V P) : Step W V P :=
  match c.queue with
  | e :: q => .ret (.event e) { c with queue := q }
  | [] => if c.stack.isEmpty then .ret .none c else .cont c

/-- The interpreter loop with a bound on the number of passes.  See `runtime/context.rs:124-441`. -/
def loop (cfg : Cfg W V P) : Nat → Ctx W V P → Option (Out P × Ctx W V P)
  | 0, _ => none
  | n + 1, c =>
    match step cfg c with
    | .ret o c' => some (o, c')
    | .cont c' => loop cfg n c'

/-- A bound on the number of passes that always suffices (`loop_fuel` in `VmLemmas`).  See `runtime/context.rs:124-441`. -/
def fuel (cfg : Cfg W V P) (c : Ctx W V P) : Nat :=
  2 * (cfg.cpuLimit + 1 - c.numInstr) + c.stack.length + 1

/-- `Context::run`.  `none` would mean that the bound on passes was too small; `run_total` shows
that this never happens.  See `runtime/context.rs:81-441`. -/
def run (cfg : Cfg W V P) (c : Ctx W V P) (i : Input W V P) : Option (Out P × Ctx W V P) :=
  match enter (applyInput cfg c i) with
  | .ret o c' => some (o, c')
  | .cont c' => loop cfg (fuel cfg c') c'

end Sieve.Vm
