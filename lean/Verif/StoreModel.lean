import Verif.SetModel
import Verif.HvarModel

/-!
# The variables of a running script

Model of `Context::variable` (`src/runtime/eval.rs:25-90`, header variables are in `Verif/HvarModel.lean`),
`set_variable`, `add_set_envelope_event` and `get_variable` (`src/runtime/actions/action_set.rs:29-91`),
`set_match_variables` and `clear_match_variables` (`src/runtime/variables.rs`), `Clear`
(`src/runtime/context.rs:177-195`), `ExtractText::exec` (`src/runtime/actions/action_mime.rs:325-373`) and the functions of
the host that set variables and the envelope (`src/runtime/context.rs:478-567`).

Simplifications.  Hash maps are functions.  A binary body and an attached message are bytes or nothing; `html_to_text`,
`text_to_html` and `String::from_utf8_lossy` are parameters, and so are the functions the modifiers need.
-/

namespace Sieve.Store
open SetVar (Variable stored Modifier)
open Hvar (Env MPart)

/-- `VariableType`, `src/compiler/mod.rs:141-149`, without headers and parts of the message. -/
inductive Key where
  | «local» (i : Nat)
  | «match» (i : Nat)
  | global (n : List Char)
  | environment (n : List Char)
  | envelope (e : Env)
deriving DecidableEq

/-- `PartType`.  For `extracted`, `src/runtime/actions/action_mime.rs:326-345`. -/
inductive Body where
  | text (t : List Char)
  | html (t : List Char)
  | binary (b : List UInt8)
  | multipart (parts : List Nat)
  | message

/-- `MessagePart`; the offsets are `raw_body_offset` and `raw_end_offset`.  For `extracted`, `src/runtime/actions/action_mime.rs:326-345`. -/
structure Part where
  body : Body
  offBody : Nat
  offEnd : Nat

/-- `Message`.  For `replaceAll`, `src/runtime/actions/action_mime.rs:26-51`. -/
structure Msg where
  raw : List UInt8
  parts : List Part
  textBody : List Nat
  htmlBody : List Nat

/-- What is read and written.  For `lookup`, `eval.rs:26-46`. -/
structure Ctx where
  locals : List Variable
  matchv : List Variable
  globals : List Char → Option Variable
  /-- `vars_env` -/
  env : List Char → Option Variable
  /-- `runtime.environment` -/
  runtimeEnv : List Char → Option Variable
  envelope : List (Env × Variable)
  msg : Msg
  /-- the current part -/
  part : Nat
  /-- `part_iter_stack` is not empty -/
  inLoop : Bool
  /-- the `SetEnvelope` events queued -/
  events : List (Env × List Char)

/-- For `partVariable`, `eval.rs:48-89`. -/
structure Lib where
  htmlToText : List Char → List Char
  textToHtml : List Char → List Char
  lossy : List UInt8 → List Char

/-- `Context::variable`, `eval.rs:26-46` -/
def lookup (c : Ctx) : Key → Option Variable
  | .local i => c.locals[i]?
  | .match i => c.matchv[i]?
  | .global n => c.globals n
  | .environment n => (c.env n).or (c.runtimeEnv n)
  | .envelope e => (c.envelope.find? fun p => p.1 = e).map (·.2)

/-- `Context::variable`, `eval.rs:48-89` -/
def partVariable (x : Lib) (c : Ctx) : MPart → Option Variable
  | .textBody convert =>
    c.msg.textBody.head?.bind fun i => c.msg.parts[i]?.bind fun p =>
      match p.body with
      | .text t => some (.str t)
      | .html t => if convert then some (.str (x.htmlToText t)) else none
      | _ => none
  | .htmlBody convert =>
    c.msg.htmlBody.head?.bind fun i => c.msg.parts[i]?.bind fun p =>
      match p.body with
      | .html t => some (.str t)
      | .text t => if convert then some (.str (x.textToHtml t)) else none
      | _ => none
  | .contents =>
    c.msg.parts[c.part]?.bind fun p =>
      match p.body with
      | .text t | .html t => some (.str t)
      | .binary b => some (.str (x.lossy b))
      | _ => none
  | .raw =>
    c.msg.parts[c.part]?.bind fun p => (Hvar.get c.msg.raw p.offBody p.offEnd).map fun b => .str (x.lossy b)

/-- The loop of `add_set_envelope_event`, `src/runtime/actions/action_set.rs:62-75` -/
def putEnvelope (e : Env) (v : Variable) : List (Env × Variable) → List (Env × Variable)
  | [] => [(e, v)]
  | p :: ps => if p.1 = e then (e, v) :: ps else p :: putEnvelope e v ps

/-- `add_set_envelope_event`, `src/runtime/actions/action_set.rs:61-77` -/
def setEnvelope (c : Ctx) (e : Env) (t : List Char) : Ctx :=
  { c with envelope := putEnvelope e (.str t) c.envelope, events := [(e, t)] }

/-- `vars_global.insert`.  For `put`, `src/runtime/actions/action_set.rs:43-58`. -/
def insert (f : List Char → Option Variable) (n : List Char) (v : Variable) : List Char → Option Variable :=
  fun m => if m = n then some v else f m

/-- The `match` of `set_variable`, `src/runtime/actions/action_set.rs:43-58` -/
def put (c : Ctx) (k : Key) (v : Variable) : Ctx :=
  match k with
  | .local i => { c with locals := c.locals.set i v }
  | .global n => { c with globals := insert c.globals n v }
  | .envelope e => setEnvelope c e v.text
  | _ => c

/-- `set_variable`, `src/runtime/actions/action_set.rs:30-59` -/
def setVariable (max : Nat) (c : Ctx) (k : Key) (v : Variable) : Ctx := put c k (stored max v)

/-- `set_match_variables`, `variables.rs:12-20` -/
def setMatch (vs : List Variable) : List (Nat × List Char) → List Variable
  | [] => vs
  | (i, t) :: ps => setMatch (vs.set i (.str t)) ps

/-- `Variable::is_empty`, `src/runtime/mod.rs:117-122` -/
def isEmpty : Variable → Bool
  | .str s => s.isEmpty
  | _ => false

/-- `variables.rs:26-29` -/
def clearOne (vs : List Variable) (i : Nat) : List Variable :=
  match vs[i]? with
  | some v => if isEmpty v then vs else vs.set i (.str [])
  | none => vs

theorem xor_top_lt {m : Nat} (h : m ≠ 0) : m ^^^ (1 <<< m.log2) < m := by
  have h1 : 2 ^ m.log2 ≤ m := Nat.log2_self_le h
  have h2 : m < 2 ^ (m.log2 + 1) := Nat.lt_log2_self
  have h3 : m ^^^ (1 <<< m.log2) < 2 ^ m.log2 := by
    apply Nat.lt_pow_two_of_testBit
    intro i hi
    rw [Nat.testBit_xor, Nat.one_shiftLeft, Nat.testBit_two_pow]
    by_cases he : m.log2 = i
    · subst he
      rw [Nat.testBit_log2 h]
      simp
    · rw [Nat.testBit_lt_two_pow (Nat.lt_of_lt_of_le h2 (Nat.pow_le_pow_right (by decide) (by omega)))]
      simp [he]
  omega

/-- `clear_match_variables`, `variables.rs:22-34`: for a number other than zero of 64 bits `63 - leading_zeros` is the
position of the highest bit. -/
def clearMatch (m : Nat) (vs : List Variable) : List Variable :=
  if h : m = 0 then vs else clearMatch (m ^^^ (1 <<< m.log2)) (clearOne vs m.log2)
termination_by m
decreasing_by exact xor_top_lt h

/-- `Clear`, `context.rs:178-190`: the slice fails as a whole if it is out of range. -/
def clearLocals (idx num : Nat) (vs : List Variable) : List Variable :=
  if idx + num ≤ vs.length then vs.mapIdx fun i v => if idx ≤ i ∧ i < idx + num ∧ !isEmpty v then .str [] else v else vs

/-- `src/runtime/actions/action_mime.rs:326-345`: the text of the current part. -/
def extracted (x : Lib) (c : Ctx) (first : Option Nat) : List Char :=
  let cut (t : List Char) := match first with
    | some n => t.take n
    | none => t
  match (c.msg.parts[c.part]?.map Part.body : Option Body) with
  | some (.text t) => cut t
  | some (.html t) => cut (x.htmlToText t)
  | _ => []

/-- `ExtractText::exec`, `src/runtime/actions/action_mime.rs:325-373`; `max` is what the modifiers are given. -/
def extractText (x : Lib) (y : SetVar.Ext) (max : Nat) (c : Ctx) (first : Option Nat) (ms : List Modifier) (k : Key) : Ctx :=
  let value :=
    if c.inLoop then
      let t := extracted x c first
      if t = [] then t else ms.foldl (fun t m => m.apply y max t) t
    else []
  put c k (.str value)

/-- What sets variables.  See `context.rs:560-566`. -/
inductive Op where
  /-- `set`, `let` and the flag actions -/
  | set (k : Key) (v : Variable)
  | extract (first : Option Nat) (ms : List Modifier) (k : Key)
  /-- a test that captures -/
  | capture (l : List (Nat × List Char))
  /-- `Clear` -/
  | clear (idx num mask : Nat)
  /-- `set_global_variable`, `context.rs:560-566` -/
  | hostGlobal (n : List Char) (v : Variable)
  /-- `set_env_variable`, `context.rs:543-549` -/
  | hostEnv (n : List Char) (v : Variable)
  /-- `set_envelope`, `context.rs:478-493`, with an address that is accepted -/
  | hostEnvelope (e : Env) (v : Variable)

/-- See `runtime/context.rs:478-566`. -/
def step (x : Lib) (y : SetVar.Ext) (max : Nat) (c : Ctx) : Op → Ctx
  | .set k v => setVariable max c k v
  | .extract first ms k => extractText x y max c first ms k
  | .capture l => { c with matchv := setMatch c.matchv l }
  | .clear idx num mask => { c with locals := clearLocals idx num c.locals, matchv := clearMatch mask c.matchv }
  | .hostGlobal n v => { c with globals := insert c.globals n v }
  | .hostEnv n v => { c with env := insert c.env n v }
  | .hostEnvelope e v => { c with envelope := c.envelope ++ [(e, v)] }

/-- See `runtime/context.rs:478-566`. -/
def run (x : Lib) (y : SetVar.Ext) (max : Nat) (c : Ctx) (ops : List Op) : Ctx := ops.foldl (step x y max) c

/-- What `replace` does to the message if the current part is the whole of it, `src/runtime/actions/action_mime.rs:26-51`: the lists of bodies stay. -/
def replaceAll (m : Msg) (t : List Char) : Msg :=
  match m.parts with
  | [] => m
  | p :: _ => { m with parts := [{ p with body := .text t, offBody := 0 }] }

/-- What `enclose` does to the message, `src/runtime/actions/action_mime.rs:184-223` -/
def encloseAll (_m : Msg) (t : List Char) : Msg :=
  ⟨[], [⟨.multipart [1, 2], 0, 0⟩, ⟨.text t, 0, 0⟩, ⟨.message, 0, 0⟩], [], []⟩

end Sieve.Store
