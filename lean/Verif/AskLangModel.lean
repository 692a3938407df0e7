import Verif.FlagLangModel
import Verif.OtherTestsModel

/-!
# The language with questions to the host

The language of `FlagLangModel` with the tests that the host answers: `mailboxexists`, `mailboxidexists`, `specialuse_exists`,
`duplicate`, and `header`, `address`, `envelope`, `string` with `:list`; and with the tests `body`, `environment`, `ihave`, `metadataexists`,
`servermetadataexists`, `valid_notify_method` and `valid_ext_list`.

What is simplified.

* Names of items of the environment are ASCII: `to_lowercase` is then `lower`.
* Everything that `FlagLangModel` simplifies.
-/

namespace Sieve.AskLang

open Sieve.Args Sieve.Fields Sieve.Vars
open Sieve.FlagLang (Text)

/-- What the commands and tests read.  See `eval.rs:31-35`. -/
structure Host (W F N : Type) where
  flags : FlagLang.Host W F N
  /-- `runtime.valid_ext_lists` -/
  lists : W → List Text
  /-- `vars_env` and `runtime.environment`, `eval.rs:31-35` (runtime), by names in lower case -/
  items : W → List UInt8 → Option (Expr.Val F)
  /-- steps for the search of `body` -/
  steps : W → Nat

variable {W F N : Type} [DecidableEq F]

/-- `TestResult` without the negation.  For `Host.environment`, `src/compiler/grammar/tests/test_environment.rs:18-80`. -/
inductive Answer where
  | bool (b : Bool)
  | ask (p : Core.Place)

/-- The text of an argument.  For `Host.test`, `src/runtime/tests/mod.rs:39-120`. -/
def Host.text (H : Host W F N) (q : Store F × (Text × W)) (v : Val F) : Text :=
  Tests.text (H.flags.env q).x.flt ((H.flags.env q).eval v)

/-- What the event of a test becomes.  For `Host.test`, `src/runtime/tests/mod.rs:39-120`. -/
def ofEvent : Event.Event → Option Answer
  | .mailboxExists ms us => some (.ask (.mailboxes ms us))
  | _ => none

/-- The result of `duplicate`.  For `Host.test`, `src/runtime/tests/mod.rs:39-120`. -/
def ofDuplicate : Tests.DupResult → Answer
  | .bool b => .bool b
  | .ask q _ => .ask (.duplicate q)

/-- The result of a test that may ask for lists.  For `Host.environment`, `src/compiler/grammar/tests/test_environment.rs:18-80`. -/
def ofOutcome (o : Tests.Outcome) : Answer :=
  match o.result with
  | .bool b => .bool b
  | .listContains ls vs c _ => .ask (.lists ls vs c)

/-- `:list` is among the tags.  For `Host.test`, `src/runtime/tests/mod.rs:39-120`. -/
def listed (g : Got F) : Bool := g.tags.any fun p => p.1 == .List

/-- The tests that have `:list`.  For `Host.test`, `src/runtime/tests/mod.rs:39-120`. -/
def Host.list [DecidableEq N] (H : Host W F N) (q : Store F × (Text × W)) : Script.Node F → Option Answer
  | .test .Header g => (Header.of g).bind fun i => (Written.header (H.flags.env q) false 0 (H.flags.vars.core.fuel q.2.2) i).map ofOutcome
  | .test .Address g => (Address.of g).bind fun i => (Written.address (H.flags.env q) false 0 (H.flags.vars.core.fuel q.2.2) i).map ofOutcome
  | .test .Envelope g => (Envelope.of g).map fun i => ofOutcome (Written.envelope (H.flags.env q) false 0 i)
  | .test .String g => (StringTest.of g).map fun i => ofOutcome (Written.string (H.flags.env q) false 0 i)
  | _ => none

/-- `parse_test_environment`, `src/compiler/grammar/tests/test_environment.rs:18-80` (compiler); `TestString::exec`, `src/runtime/tests/test_string.rs:18-105` (runtime). -/
def Host.environment (H : Host W F N) (q : Store F × (Text × W)) (g : Got F) : Option Answer :=
  match g.pos with
  | [.text n, .vals ks] =>
    let env := H.flags.env q
    let v := testVarsOf g
    some (ofOutcome (Tests.stringTest env.x true false (Written.comparatorOf v.comparator) (Written.matchOf 0 v.matchType)
      [((H.items q.2.2 (lower n)).getD (.str []))] (ks.map env.eval)))
  | _ => none

/-- The tests with a list of strings: `mailboxexists`, `mailboxidexists`, `valid_notify_method`, `valid_ext_list`.
For `Host.test`, `src/runtime/tests/mod.rs:39-120`. -/
def Host.strings (H : Host W F N) (q : Store F × (Text × W)) (w : Word) (vs : List (Val F)) : Option Answer :=
  let events := H.flags.up.at.events q
  let o := H.flags.other q.2.2
  match w with
  | .MailboxExists => ofEvent (Event.mailboxExists events vs)
  | .MailboxIdExists => ofEvent (Event.mailboxIdExists events vs)
  | .ValidNotifyMethod => some (.bool (Tests.validNotifyTest o.mailto o.notifyUris (vs.map fun v => (H.flags.env q).x.utf8 (H.text q v)) false))
  | .ValidExtList => some (.bool (Tests.validListTest (H.lists q.2.2) (vs.map (H.text q)) false))
  | .ServerMetadataExists => some (.bool (Tests.metadataExistsTest (H.flags.env q).x o.stored none (vs.map (H.text q)) false))
  | _ => none

/-- `Test::Ihave`, `src/runtime/tests/mod.rs:55-61` (runtime). -/
def ihave (allowed : Vm.Cap → Bool) (caps : List Vm.Cap) : Bool :=
  caps.all fun c => !([.known "variables", .known "encoded-character"] : List Vm.Cap).contains c && allowed c

/-- `Test::exec`, `src/runtime/tests/mod.rs:39-120`, with `is_not = false`; `allowed` is `runtime.allowed_capabilities`. -/
def Host.test [DecidableEq N] (H : Host W F N) (allowed : Vm.Cap → Bool) (q : Store F × (Text × W)) (n : Script.Node F) : Option Answer :=
  match n with
  | .test .SpecialUseExists g => (Event.SpecialUse.of g).bind fun i => ofEvent (Event.specialUseExists (H.flags.up.at.events q) i)
  | .test .Duplicate g => (Written.duplicate (H.flags.env q) (H.flags.other q.2.2) false (H.flags.vars.core.fuel q.2.2) (Duplicate.of g)).map ofDuplicate
  | .test .Body g => (Body.of g).bind fun i => (Written.body (H.flags.env q) (H.flags.other q.2.2) false 0 (H.steps q.2.2) i).map .bool
  | .test .Environment g => H.environment q g
  | .test .Ihave g =>
    match g.pos with
    | [.texts ns] => some (.bool (ihave allowed (H.flags.vars.core.caps ns)))
    | _ => none
  | .test .MetadataExists g =>
    match g.pos with
    | [.val mb, .vals vs] => some (.bool (Tests.metadataExistsTest (H.flags.env q).x (H.flags.other q.2.2).stored (some (H.text q mb)) (vs.map (H.text q)) false))
    | _ => none
  | .test w g =>
    if w ∈ [Word.MailboxExists, .MailboxIdExists, .ValidNotifyMethod, .ValidExtList, .ServerMetadataExists] then
      match g.pos with
      | [.vals vs] => H.strings q w vs
      | _ => none
    else if listed g then H.list q (.test w g)
    else (H.flags.test q (.test w g)).map .bool
  | _ => none

/-- The language for the interpreter.  See `runtime/context.rs:124-441`. -/
def Host.interp [DecidableEq N] (H : Host W F N) (cfg : Vm.Cfg (Text × W) (Expr.Val F) Core.Place) (notV : Expr.Val F → Expr.Val F)
    (not_spec : ∀ v, cfg.toBool (notV v) = !cfg.toBool v) : Source.Interp cfg (Script.Node F) (Script.Node F) (List UInt8) where
  act := H.flags.act
  plain := FlagLang.act_plain H.flags
  test := fun n v =>
    match if H.flags.up.accepts (Core.got n) then H.test cfg.allowed (H.flags.up.see v) n else none with
    | some (.bool b) => ⟨.bool b, v.matchv, v.world, false⟩
    | some (.ask p) => ⟨.event p false, v.matchv, v.world, false⟩
    | none => ⟨.error .nowhere, v.matchv, v.world, false⟩
  expr := fun _ v => .call .nowhere v.world
  bad := fun _ => .nowhere
  notV := notV
  not_spec := not_spec

end Sieve.AskLang
