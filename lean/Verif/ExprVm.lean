import Verif.ExprProps
import Verif.VmLemmas

/-!
# Host functions in a running script

C20 for the interpreter: `eval`, `while` and `let` with an expression that calls functions of the host.
The evaluation stack and position are part of the world of `VmModel`, reached through `get` and `put`.
-/

namespace Sieve.Expr

open Sieve.Vm

variable {W V P X K : Type}

/-- How the evaluation state (`expr_pos`, `expr_stack`) is stored in the world, and what variables and functions an expression
sees. -/
structure Store (cfg : Cfg W V P) (X K : Type) where
  get : W → Nat × List V
  put : W → Nat × List V → W
  env : View W V → Env X K V
  get_put : ∀ w s, get (put w s) = s
  put_put : ∀ w s s', put (put w s) s' = put w s'
  put_get : ∀ w, put w (get w) = w
  /-- `Input::FncResult`, `src/runtime/context.rs:85-87` -/
  push : ∀ w v, cfg.pushResult w v = put w ((get w).1, v :: (get w).2)
  /-- expressions do not see the evaluation state -/
  blind : ∀ (w : View W V) s, env { w with world := put w.world s } = env w

/-- An expression as `VmModel` represents it: the call of `eval_expression` with the stored state; afterwards the state is
stored, or reset. -/
def compiled {cfg : Cfg W V P} (S : Store cfg X K) (event : Nat × List V → P) (code : List (Code X K)) (w : View W V) : ExprOut W V P :=
  match evalExpr (S.env w) code (S.get w.world) with
  | .done v => .done v (S.put w.world (0, []))
  | .call id args pos st => .call (event (id, args)) (S.put w.world (pos, st))

/-- What the three instructions with expressions do with the value. -/
inductive Uses (W V P : Type) where
  | eval
  | while (jz : Nat)
  | let_ (t : Target W V P)

def Uses.instr (f : View W V → ExprOut W V P) : Uses W V P → Instr W V P
  | .eval => .eval f
  | .while jz => .while f jz
  | .let_ t => .let_ t f

/-- The state after the instruction, given the value of the expression. -/
def Uses.then (cfg : Cfg W V P) (c : Ctx W V P) (v : V) : Uses W V P → Ctx W V P
  | .eval => { c with testResult := cfg.toBool v }
  | .while jz => if cfg.toBool v then c else { c with pos := jz }
  | .let_ t => setTarget c t v

/-- A part of a session in which every call of `run` ends with a function event, which the host answers: the events, the
answers, and the states before and after. -/
inductive Asked (cfg : Cfg W V P) : Ctx W V P → List P → List V → Ctx W V P → Prop where
  | done (c) : Asked cfg c [] [] c
  | ask {c c1 c2 c3 p ps v vs} : step cfg c = .ret (.event (.function p)) c1 →
      enter (applyInput cfg c1 (.fncResult v)) = .cont c2 → Asked cfg c2 ps vs c3 → Asked cfg c (p :: ps) (v :: vs) c3

/-- One pass over the instruction. -/
theorem step_expr {cfg : Cfg W V P} (S : Store cfg X K) (event : Nat × List V → P) (code : List (Code X K)) (u : Uses W V P) (c : Ctx W V P)
    (hf : fetch c = some (u.instr (compiled S event code))) (hcpu : c.numInstr < cfg.cpuLimit) :
    step cfg c =
      match evalExpr (S.env c.view) code (S.get c.world) with
      | .done v => .cont (u.then cfg { c with numInstr := c.numInstr + 1, pos := c.pos + 1, world := S.put c.world (0, []) } v)
      | .call id args pos st =>
        .ret (.event (.function (event (id, args)))) { c with numInstr := c.numInstr + 1, world := S.put c.world (pos, st) } := by
  unfold fetch at hf
  unfold step
  split at hf
  · cases hf
  · rename_i fr rest hs
    rw [hs]
    simp only [hf]
    rw [if_neg (by omega)]
    have hv : (compiled S event code (Ctx.view { c with numInstr := c.numInstr + 1, pos := c.pos + 1 })) =
        compiled S event code c.view := rfl
    cases u with
    | eval =>
      simp only [Uses.instr, exec, hv]
      simp only [compiled, Ctx.view]
      split <;> rename_i h <;> split at h <;> cases h <;> simp_all [Uses.then]
    | «while» jz =>
      simp only [Uses.instr, exec, hv]
      simp only [compiled, Ctx.view]
      split <;> rename_i h <;> split at h <;> cases h <;> simp_all [Uses.then]
    | let_ t =>
      simp only [Uses.instr, exec, hv]
      simp only [compiled, Ctx.view]
      split <;> rename_i h <;> split at h <;> cases h <;> simp_all [Uses.then]

theorem asked_play {cfg : Cfg W V P} (S : Store cfg X K) (event : Nat × List V → P) (code : List (Code X K)) (u : Uses W V P) (answers : List V) :
    ∀ (c : Ctx W V P) (calls : List (Nat × List V)) (v : V), fetch c = some (u.instr (compiled S event code)) → c.queue = [] →
      c.numInstr + answers.length < cfg.cpuLimit →
      playCode (S.env c.view) code (S.get c.world) answers = (calls, some v) → calls.length = answers.length →
      ∃ c', Asked cfg c (calls.map event) answers c' ∧
        step cfg c' = .cont (u.then cfg { c with numInstr := c.numInstr + calls.length + 1, pos := c.pos + 1, world := S.put c.world (0, []) } v) := by
  induction answers with
  | nil =>
    intro c calls v hf hq hcpu hp hl
    have hst := step_expr S event code u c hf (by simpa using hcpu)
    unfold playCode at hp
    split at hp
    · rename_i v' hv
      simp only [Prod.mk.injEq, Option.some.injEq] at hp
      obtain ⟨rfl, rfl⟩ := hp
      exact ⟨c, .done c, by rw [hst, hv]; rfl⟩
    · simp at hp
  | cons a as ih =>
    intro c calls v hf hq hcpu hp hl
    have hst := step_expr S event code u c hf (by simp at hcpu; omega)
    unfold playCode at hp
    split at hp
    · simp only [Prod.mk.injEq] at hp
      obtain ⟨rfl, _⟩ := hp
      simp at hl
    · rename_i id args pos st hv
      rw [hv] at hst
      simp only [Prod.mk.injEq] at hp
      obtain ⟨rfl, h2⟩ := hp
      let c2 : Ctx W V P := { c with numInstr := c.numInstr + 1, world := S.put c.world (pos, a :: st) }
      have henv : S.env c2.view = S.env c.view := S.blind c.view _
      have hget : S.get c2.world = (pos, a :: st) := S.get_put _ _
      obtain ⟨c', h3, h4⟩ := ih c2 (playCode (S.env c.view) code (pos, a :: st) as).1 v hf hq (by simp at hcpu; simp [c2]; omega)
        (by rw [henv, hget, ← h2]) (by simpa using hl)
      refine ⟨c', .ask hst ?_ h3, ?_⟩
      · have hs : c.stack.isEmpty = false := by
          unfold fetch at hf
          cases hs : c.stack with
          | nil => rw [hs] at hf; cases hf
          | cons _ _ => rfl
        simp [applyInput, S.push, S.get_put, S.put_put, enter, hq, hs, c2]
      · rw [h4]
        congr 2
        simp only [c2, S.put_put, List.length_cons]
        congr 1
        omega

/-- An instruction with an expression, met by the interpreter in a state in which no evaluation is under way: the host
receives one function event per call of the expression, with the arguments of the call, and once it has answered them all the
instruction is completed with the value of the expression; nothing else has changed but the instruction counter. -/
theorem function_events {cfg : Cfg W V P} (S : Store cfg X K) (event : Nat × List V → P) (u : Uses W V P) {ts : List (Tok X K)} {e : Ex X K}
    (h : G true 1 ts e) (host : Nat → List V → V) (c : Ctx W V P) :
    ∃ code, parse ts = .ok code ∧
      let r := e.eval (S.env c.view) host
      (fetch c = some (u.instr (compiled S event code)) → c.queue = [] → S.get c.world = (0, []) →
        c.numInstr + r.1.length < cfg.cpuLimit →
        ∃ c', Asked cfg c (r.1.map event) (r.1.map fun x => host x.1 x.2) c' ∧
          step cfg c' = .cont (u.then cfg { c with numInstr := c.numInstr + r.1.length + 1, pos := c.pos + 1 } r.2)) := by
  obtain ⟨code, hc, hp⟩ := host_calls h (S.env c.view) host
  refine ⟨code, hc, ?_⟩
  intro r hf hq hg hcpu
  have := asked_play S event code u (r.1.map fun x => host x.1 x.2) c r.1 r.2 hf hq (by simpa using hcpu) (by rw [hg, hp]) (by simp)
  obtain ⟨c', h1, h2⟩ := this
  refine ⟨c', h1, ?_⟩
  rw [h2]
  have hw : S.put c.world (0, []) = c.world := by rw [← hg, S.put_get]
  rw [hw]

/-! ## An instance -/

/-- The evaluation state is the whole world; variables are the local variables. -/
def exCfg : Cfg (Nat × List Nat) Nat (Nat × List Nat) where
  cpuLimit := 100
  maxRedirects := 1
  maxOut := 3
  maxReceived := 10
  maxIncludes := 3
  allowed _ := true
  registered _ := none
  received _ := 0
  own _ _ := false
  nested _ _ _ := []
  globalFlags _ := []
  render _ := (0, [])
  toBool v := v != 0
  isEmpty _ := false
  empty := 0
  pushResult w v := (w.1, v :: w.2)

def exStore : Store exCfg Nat Nat where
  get w := w
  put _ s := s
  env w := { var := fun x => (w.locals[x]?).getD 0, lit := id, bin := fun _ a b => a + b, un := fun _ a => a, toBool := fun a => a != 0,
             dflt := 0, func := fun _ => none, access := fun a _ => a, build := List.sum }
  get_put _ _ := rfl
  put_put _ _ _ := rfl
  put_get _ := rfl
  push _ _ := rfl
  blind _ _ := rfl

/-- `let local.0 = h(v0 + 2)` -/
def exLet : List (Tok Nat Nat) := [.func (idExternal - 4) 1, .popen, .var 0, .bin .add, .lit 2, .pclose]

def exLetTree : Ex Nat Nat := .call (idExternal - 4) (.cons (.bin .add (.var 0) (.lit 2)) .nil)

theorem exLet_grammar : G true 1 exLet exLetTree := by
  refine G.ups 9 10 rfl (by omega) (by omega) ?_
  refine .call (ts := [.var 0, .bin .add, .lit 2]) (by decide) (by decide) (.one ?_ (by simp)) rfl
  refine G.ups 5 6 rfl (by omega) (by omega) ?_
  exact .bin (l := [.var 0]) (prec_atLevel .add) (G.ups 4 10 rfl (by omega) (by omega) .var) (G.ups 2 9 rfl (by omega) (by omega) .lit)

def exCode : List (Code Nat Nat) := [.var 0, .lit 2, .bin .add, .func (idExternal - 4) 1]

def exState : Ctx (Nat × List Nat) Nat (Nat × List Nat) :=
  { Ctx.new (0, []) with pos := 0, locals := [40], stack := [⟨⟨[(Uses.let_ (.local 0)).instr (compiled exStore id exCode)], 1, 0⟩, 0, [], []⟩] }

example : parse exLet = .ok exCode ∧ fetch exState = some ((Uses.let_ (.local 0)).instr (compiled exStore id exCode)) ∧
    exState.queue = [] ∧ exStore.get exState.world = (0, []) ∧
    exLetTree.eval (exStore.env exState.view) (fun _ _ => 7) = ([(4, [42])], 7) := by
  refine ⟨by decide, rfl, rfl, rfl, ?_⟩
  simp [exLetTree, Ex.eval, Exs.evals, exStore, exState, Ctx.view, idExternal]

end Sieve.Expr
