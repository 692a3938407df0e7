import Verif.VarsModel
import Verif.WrittenOtherModel

/-!
# The language with flags and the other tests

The language of `VarsModel` with `setflag`, `addflag`, `removeflag` (`FlagsModel`) and the tests `hasflag`, `date`, `currentdate`,
`spamtest`, `virustest`, `metadata`, `servermetadata`, `notify_method_capability` (`WrittenModel`, `WrittenOtherModel`).  The state of the
message has the text of the variable `__flags` beside it.

What is simplified.

* `__flags` that has not been set is the empty text: both are read the same.
* `hasflag` looks a variable up and does not register it, see `VarsScope`.
* Everything that `VarsModel` simplifies.
-/

namespace Sieve.FlagLang

open Sieve.Args Sieve.Fields Sieve.Vars

/-- For `Host.up`, `src/runtime/actions/action_flags.rs:125-134`. -/
abbrev Text := List Char

/-- What the commands and tests read.  For `Host.up`, `src/runtime/actions/action_flags.rs:125-134`. -/
structure Host (W F N : Type) where
  vars : Vars.Host W F N
  /-- `str::to_lowercase` -/
  lowercase : Text → Text
  /-- what the tests of `WrittenOtherModel` read -/
  other : W → Written.OtherEnv F

variable {W F N : Type} [DecidableEq F]

/-- The language with variables, in a state of the flags: `get_global_flags`, `src/runtime/actions/action_flags.rs:125-134`. -/
def Host.up (H : Host W F N) : Vars.Host (Text × W) F N :=
  { H.vars with
    core := {
      env := fun q => { H.vars.core.env q.2 with flags := some (.str q.1) }
      fuel := fun q => H.vars.core.fuel q.2
      size := fun q => H.vars.core.size q.2
      user := fun q => H.vars.core.user q.2
      time := H.vars.core.time
      flagText := fun q => q.1
      received := fun q => H.vars.core.received q.2
      caps := H.vars.core.caps } }

/-- `Context::get_variable` of a variable by its name, `src/runtime/actions/action_set.rs:77-94`. -/
def named (σ : Store F) : Val F → Option (Expr.Val F)
  | .text n => σ (lower n)
  | _ => none

/-- What tests read, in a state of the variables, of the flags and of the message.  For `Host.test`, `src/runtime/tests/mod.rs:39-120`. -/
def Host.env (H : Host W F N) (q : Store F × (Text × W)) : Written.Env F N := { H.up.at.env q with getVariable := named q.1 }

/-! ## Tests -/

/-- `Test::exec`, `src/runtime/tests/mod.rs:39-120`, with `is_not = false`. -/
def Host.test [DecidableEq N] (H : Host W F N) (q : Store F × (Text × W)) : Script.Node F → Option Bool
  | .test .HasFlag g => (HasFlag.of g).bind fun i => Core.boolOf (Written.hasflag (H.env q) false 0 i)
  | .test .Date g => (Date.of g).bind fun i =>
      (Written.date (H.env q) (H.other q.2.2) false 0 (H.vars.core.fuel q.2.2) i).bind Core.boolOf
  | .test .CurrentDate g => (CurrentDate.of g).bind fun i => (Written.currentdate (H.env q) (H.other q.2.2) false 0 i).bind Core.boolOf
  | .test .SpamTest g => (SpamTest.of g).bind fun i => Core.boolOf (Written.spamtest (H.env q) (H.other q.2.2) false 0 i)
  | .test .VirusTest g => (SpamTest.of g).bind fun i => Core.boolOf (Written.virustest (H.env q) (H.other q.2.2) false 0 i)
  | .test .Metadata g => (TwoNames.of g).bind fun i => Core.boolOf (Written.metadata (H.env q) (H.other q.2.2) false 0 i)
  | .test .ServerMetadata g => (OneName.of g).bind fun i => Core.boolOf (Written.servermetadata (H.env q) (H.other q.2.2) false 0 i)
  | .test .NotifyMethodCapability g => (TwoNames.of g).map fun i => Written.notifyCapability (H.env q) (H.other q.2.2) false 0 i
  | n => H.up.test q n

/-! ## Commands -/

/-- `parse_flag_action`, `src/compiler/grammar/actions/action_flags.rs:46-51` (compiler). -/
def actionOf : Word → Option Flags.Action
  | .SetFlag => some .set
  | .AddFlag => some .add
  | .RemoveFlag => some .remove
  | _ => none

/-- `EditFlags::exec`, `src/runtime/actions/action_flags.rs:15-86` (runtime): the flags afterwards. -/
def edited (lower : Text → Text) (a : Flags.Action) (old : Text) (toks : List Text) : Text :=
  match a with
  | .set => Flags.setFlags lower toks
  | .add => Flags.addFlags lower old toks
  | .remove => Flags.removeFlags lower old toks

/-- The value that the variable gets by `set_variable`, `src/runtime/actions/action_set.rs:28-40` (runtime). -/
def Host.newFlags (H : Host W F N) (a : Flags.Action) (vs : List (Val F)) (q : Store F × (Text × W)) (old : Text) : Expr.Val F :=
  let env := H.up.at.env q
  stored env.x.flt H.vars.max (.str (edited H.lowercase a old (Flags.tokens env.x.ws (vs.map fun v => Tests.text env.x.flt (env.eval v)))))

/-- `EditFlags` with a name or without, `src/compiler/grammar/actions/action_flags.rs:53-81` (compiler). -/
def Host.edit (H : Host W F N) (a : Flags.Action) (g : Got F) : Vm.Instr (Text × W) (Expr.Val F) Core.Place :=
  match g.pos with
  | [.vals vs] =>
    .editFlags (.global fun q v => (Tests.text (H.vars.core.env q.2).x.flt v, q.2)) fun v => H.newFlags a vs (H.up.see v) v.world.1
  | [.text n, .vals vs] =>
    match H.vars.names.idxOf? (lower n) with
    | some k => .editFlags (.local k) fun v =>
        let q := H.up.see v
        H.newFlags a vs q (match q.1 (lower n) with | some r => Tests.text (H.vars.core.env q.2.2).x.flt r | none => [])
    | none => .invalid .nowhere
  | _ => .invalid .nowhere

/-- The instruction of a command.  See `runtime/context.rs:124-441`. -/
def Host.act (H : Host W F N) (n : Script.Node F) : Vm.Instr (Text × W) (Expr.Val F) Core.Place :=
  match n with
  | .cmd c g =>
    match actionOf c with
    | some a => if H.up.accepts g then H.edit a g else .invalid .nowhere
    | none => H.up.act n
  | n => H.up.act n

theorem act_plain (H : Host W F N) (n : Script.Node F) : Source.Plain (H.act n) := by
  unfold Host.act
  split
  · split
    · split
      · unfold Host.edit
        split
        · trivial
        · split <;> trivial
        · trivial
      · trivial
    · exact Vars.act_plain _ _
  · exact Vars.act_plain _ _

/-- The language for the interpreter.  See `runtime/context.rs:124-441`. -/
def Host.interp [DecidableEq N] (H : Host W F N) (cfg : Vm.Cfg (Text × W) (Expr.Val F) Core.Place) (notV : Expr.Val F → Expr.Val F)
    (not_spec : ∀ v, cfg.toBool (notV v) = !cfg.toBool v) : Source.Interp cfg (Script.Node F) (Script.Node F) (List UInt8) where
  act := H.act
  plain := act_plain H
  test := fun n v =>
    match if H.up.accepts (Core.got n) then H.test (H.up.see v) n else none with
    | some b => ⟨.bool b, v.matchv, v.world, false⟩
    | none => ⟨.error .nowhere, v.matchv, v.world, false⟩
  expr := fun _ v => .call .nowhere v.world
  bad := fun _ => .nowhere
  notV := notV
  not_spec := not_spec

end Sieve.FlagLang
