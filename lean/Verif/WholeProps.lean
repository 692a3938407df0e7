import Verif.TextProps
import Verif.SourceProps

/-!
# C100: a script does what its text says

The chain from the text to the running script: the lexer (C85), arguments and extensions (C77–C84), the compiler (C05–C08)
and the interpreter.
-/

namespace Sieve.Compile

variable {A T E : Type}

/-! ## A sequence of tokens has one structure -/

theorem Atom.tok_inj {a a' : Atom A T E} (h : a.tok = a'.tok) : a = a' := by
  cases a <;> cases a' <;> simp [Atom.tok] at h <;> simp [h]

theorem Atom.tok_ne (a : Atom A T E) : a.tok ≠ .knot ∧ a.tok ≠ .kanyof ∧ a.tok ≠ .kallof := by
  cases a <;> simp [Atom.tok]

mutual
theorem TestE.toks_inj : ∀ (e e' : TestE A T E) (r r'), e.toks ++ r = e'.toks ++ r' → e = e' ∧ r = r'
  | .atom a, e', r, r', h => by
    cases e' with
    | atom a' =>
      simp only [TestE.toks, List.cons_append, List.nil_append, List.cons.injEq] at h
      exact ⟨by rw [Atom.tok_inj h.1], h.2⟩
    | not e => simp only [TestE.toks, List.cons_append, List.nil_append, List.cons.injEq] at h; exact absurd h.1 (a.tok_ne).1
    | any l => simp only [TestE.toks, List.cons_append, List.nil_append, List.cons.injEq] at h; exact absurd h.1 (a.tok_ne).2.1
    | all l => simp only [TestE.toks, List.cons_append, List.nil_append, List.cons.injEq] at h; exact absurd h.1 (a.tok_ne).2.2
  | .not e, e', r, r', h => by
    cases e' with
    | atom a' => simp only [TestE.toks, List.cons_append, List.nil_append, List.cons.injEq] at h; exact absurd h.1.symm (a'.tok_ne).1
    | not e' =>
      simp only [TestE.toks, List.cons_append, List.cons.injEq, true_and] at h
      replace h := TestE.toks_inj e e' r r' h
      obtain ⟨rfl, h⟩ := h
      exact ⟨rfl, h⟩
    | any l => simp [TestE.toks] at h
    | all l => simp [TestE.toks] at h
  | .any l, e', r, r', h => by
    cases e' with
    | atom a' => simp only [TestE.toks, List.cons_append, List.nil_append, List.cons.injEq] at h; exact absurd h.1.symm (a'.tok_ne).2.1
    | any l' =>
      simp only [TestE.toks, List.cons_append, List.cons.injEq, true_and, List.append_assoc, List.nil_append] at h
      replace h := Tests.toks_inj l l' r r' h
      obtain ⟨rfl, h⟩ := h
      exact ⟨rfl, h⟩
    | not l => simp [TestE.toks] at h
    | all l => simp [TestE.toks] at h
  | .all l, e', r, r', h => by
    cases e' with
    | atom a' => simp only [TestE.toks, List.cons_append, List.nil_append, List.cons.injEq] at h; exact absurd h.1.symm (a'.tok_ne).2.2
    | all l' =>
      simp only [TestE.toks, List.cons_append, List.cons.injEq, true_and, List.append_assoc, List.nil_append] at h
      replace h := Tests.toks_inj l l' r r' h
      obtain ⟨rfl, h⟩ := h
      exact ⟨rfl, h⟩
    | not l => simp [TestE.toks] at h
    | any l => simp [TestE.toks] at h
theorem Tests.toks_inj : ∀ (l l' : Tests A T E) (r r'), l.toks ++ .pclose :: r = l'.toks ++ .pclose :: r' → l = l' ∧ r = r'
  | .one e, l', r, r', h => by
    cases l' with
    | one e' =>
      replace h := TestE.toks_inj e e' _ _ h
      obtain ⟨rfl, h⟩ := h
      exact ⟨rfl, by simpa using h⟩
    | cons e' l' =>
      simp only [Tests.toks, List.append_assoc] at h
      obtain ⟨-, h⟩ := TestE.toks_inj e e' _ _ h
      simp at h
  | .cons e l, l', r, r', h => by
    cases l' with
    | one e' =>
      simp only [Tests.toks, List.append_assoc] at h
      obtain ⟨-, h⟩ := TestE.toks_inj e e' _ _ h
      simp at h
    | cons e' l' =>
      simp only [Tests.toks, List.append_assoc] at h
      replace h := TestE.toks_inj e e' _ _ h
      obtain ⟨rfl, h⟩ := h
      simp only [List.cons_append, List.cons.injEq, true_and] at h
      replace h := Tests.toks_inj l l' r r' h
      obtain ⟨rfl, h⟩ := h
      exact ⟨rfl, h⟩
end

/-- What may follow a block. -/
def Ends (r : List (Tok A T E)) : Prop := r = [] ∨ ∃ cl r', r = .cclose cl :: r'

theorem Ends.notElse {r : List (Tok A T E)} (h : Ends r) : isElse r = false := by
  rcases h with rfl | ⟨cl, r', rfl⟩ <;> rfl

theorem ends_stmt (s : Stmt A T E) (r) : ¬ Ends (s.toks ++ r) := by
  rintro (h | ⟨cl, r', h⟩)
  · cases s with
    | cond c => cases c <;> simp [Stmt.toks, Chain.toks] at h
    | _ => simp [Stmt.toks] at h
  · cases s with
    | cond c => cases c <;> simp [Stmt.toks, Chain.toks] at h
    | _ => simp [Stmt.toks] at h

mutual
theorem Stmt.toks_inj : ∀ (s s' : Stmt A T E) (r r'), isElse r = false → isElse r' = false → s.toks ++ r = s'.toks ++ r' → s = s' ∧ r = r'
  | .act is, s', r, r', _, _, h => by
    cases s' with
    | act is' => simpa [Stmt.toks] using h
    | cond c => cases c <;> simp [Stmt.toks, Chain.toks] at h
    | _ => simp [Stmt.toks] at h
  | .eval e, s', r, r', _, _, h => by
    cases s' with
    | eval is' => simpa [Stmt.toks] using h
    | cond c => cases c <;> simp [Stmt.toks, Chain.toks] at h
    | _ => simp [Stmt.toks] at h
  | .vac t a, s', r, r', _, _, h => by
    cases s' with
    | vac t' a' => simpa [Stmt.toks] using h
    | cond c => cases c <;> simp [Stmt.toks, Chain.toks] at h
    | _ => simp [Stmt.toks] at h
  | .brk l, s', r, r', _, _, h => by
    cases s' with
    | brk l' => simpa [Stmt.toks] using h
    | cond c => cases c <;> simp [Stmt.toks, Chain.toks] at h
    | _ => simp [Stmt.toks] at h
  | .cont, s', r, r', _, _, h => by
    cases s' with
    | cont => simpa [Stmt.toks] using h
    | cond c => cases c <;> simp [Stmt.toks, Chain.toks] at h
    | _ => simp [Stmt.toks] at h
  | .ret, s', r, r', _, _, h => by
    cases s' with
    | ret => simpa [Stmt.toks] using h
    | cond c => cases c <;> simp [Stmt.toks, Chain.toks] at h
    | _ => simp [Stmt.toks] at h
  | .loop e b cl, s', r, r', _, _, h => by
    cases s' with
    | loop e' b' cl' =>
      simp only [Stmt.toks, List.cons_append, List.append_assoc, List.nil_append, List.cons.injEq, Tok.kwhile.injEq, true_and] at h
      obtain ⟨rfl, h⟩ := h
      replace h := Blk.toks_inj b b' _ _ (.inr ⟨_, _, rfl⟩) (.inr ⟨_, _, rfl⟩) h
      obtain ⟨rfl, h⟩ := h
      simpa using h
    | cond c => cases c <;> simp [Stmt.toks, Chain.toks] at h
    | _ => simp [Stmt.toks] at h
  | .parts l b cl, s', r, r', _, _, h => by
    cases s' with
    | parts l' b' cl' =>
      simp only [Stmt.toks, List.cons_append, List.append_assoc, List.nil_append, List.cons.injEq, Tok.kfep.injEq, true_and] at h
      obtain ⟨rfl, h⟩ := h
      replace h := Blk.toks_inj b b' _ _ (.inr ⟨_, _, rfl⟩) (.inr ⟨_, _, rfl⟩) h
      obtain ⟨rfl, h⟩ := h
      simpa using h
    | cond c => cases c <;> simp [Stmt.toks, Chain.toks] at h
    | _ => simp [Stmt.toks] at h
  | .cond c, s', r, r', hr, hr', h => by
    cases s' with
    | cond c' =>
      simp only [Stmt.toks] at h
      replace h := Chain.toks_inj true c c' r r' hr hr' h
      obtain ⟨rfl, h⟩ := h
      exact ⟨rfl, h⟩
    | _ => cases c <;> simp [Stmt.toks, Chain.toks] at h
theorem Blk.toks_inj : ∀ (b b' : Blk A T E) (r r'), Ends r → Ends r' → b.toks ++ r = b'.toks ++ r' → b = b' ∧ r = r'
  | .nil, b', r, r', hr, hr', h => by
    cases b' with
    | nil => exact ⟨rfl, by simpa [Blk.toks] using h⟩
    | cons s b' =>
      simp only [Blk.toks, List.nil_append, List.append_assoc] at h
      rw [h] at hr
      exact absurd hr (ends_stmt s _)
  | .cons s b, b', r, r', hr, hr', h => by
    cases b' with
    | nil =>
      simp only [Blk.toks, List.nil_append, List.append_assoc] at h
      rw [← h] at hr'
      exact absurd hr' (ends_stmt s _)
    | cons s' b' =>
      simp only [Blk.toks, List.append_assoc] at h
      replace h := Stmt.toks_inj s s' _ _ (isElse_blk b r hr.notElse) (isElse_blk b' r' hr'.notElse) h
      obtain ⟨rfl, h⟩ := h
      replace h := Blk.toks_inj b b' r r' hr hr' h
      obtain ⟨rfl, h⟩ := h
      exact ⟨rfl, h⟩
theorem Chain.toks_inj (first : Bool) : ∀ (c c' : Chain A T E) (r r'), isElse r = false → isElse r' = false →
    c.toks first ++ r = c'.toks first ++ r' → c = c' ∧ r = r'
  | .one t b cl, c', r, r', hr, hr', h => by
    cases c' with
    | one t' b' cl' =>
      simp only [Chain.toks, List.cons_append, List.append_assoc, List.nil_append, List.cons.injEq, true_and] at h
      replace h := TestE.toks_inj t t' _ _ h
      obtain ⟨rfl, h⟩ := h
      simp only [List.cons.injEq, true_and] at h
      replace h := Blk.toks_inj b b' _ _ (.inr ⟨_, _, rfl⟩) (.inr ⟨_, _, rfl⟩) h
      obtain ⟨rfl, h⟩ := h
      simpa using h
    | els t' b' cl' e' cl2' =>
      simp only [Chain.toks, List.cons_append, List.append_assoc, List.nil_append, List.cons.injEq, true_and] at h
      replace h := TestE.toks_inj t t' _ _ h
      obtain ⟨rfl, h⟩ := h
      simp only [List.cons.injEq, true_and] at h
      replace h := Blk.toks_inj b b' _ _ (.inr ⟨_, _, rfl⟩) (.inr ⟨_, _, rfl⟩) h
      obtain ⟨rfl, h⟩ := h
      simp only [List.cons.injEq] at h
      rw [h.2] at hr
      simp [isElse] at hr
    | elif t' b' cl' c' =>
      simp only [Chain.toks, List.cons_append, List.append_assoc, List.nil_append, List.cons.injEq, true_and] at h
      replace h := TestE.toks_inj t t' _ _ h
      obtain ⟨rfl, h⟩ := h
      simp only [List.cons.injEq, true_and] at h
      replace h := Blk.toks_inj b b' _ _ (.inr ⟨_, _, rfl⟩) (.inr ⟨_, _, rfl⟩) h
      obtain ⟨rfl, h⟩ := h
      simp only [List.cons.injEq] at h
      rw [h.2, isElse_chain] at hr
      cases hr
  | .els t b cl e cl2, c', r, r', hr, hr', h => by
    cases c' with
    | one t' b' cl' =>
      simp only [Chain.toks, List.cons_append, List.append_assoc, List.nil_append, List.cons.injEq, true_and] at h
      replace h := TestE.toks_inj t t' _ _ h
      obtain ⟨rfl, h⟩ := h
      simp only [List.cons.injEq, true_and] at h
      replace h := Blk.toks_inj b b' _ _ (.inr ⟨_, _, rfl⟩) (.inr ⟨_, _, rfl⟩) h
      obtain ⟨rfl, h⟩ := h
      simp only [List.cons.injEq] at h
      rw [← h.2] at hr'
      simp [isElse] at hr'
    | els t' b' cl' e' cl2' =>
      simp only [Chain.toks, List.cons_append, List.append_assoc, List.nil_append, List.cons.injEq, true_and] at h
      replace h := TestE.toks_inj t t' _ _ h
      obtain ⟨rfl, h⟩ := h
      simp only [List.cons.injEq, true_and] at h
      replace h := Blk.toks_inj b b' _ _ (.inr ⟨_, _, rfl⟩) (.inr ⟨_, _, rfl⟩) h
      obtain ⟨rfl, h⟩ := h
      simp only [List.cons.injEq, Tok.cclose.injEq, true_and] at h
      obtain ⟨rfl, h⟩ := h
      replace h := Blk.toks_inj e e' _ _ (.inr ⟨_, _, rfl⟩) (.inr ⟨_, _, rfl⟩) h
      obtain ⟨rfl, h⟩ := h
      simpa using h
    | elif t' b' cl' c' =>
      simp only [Chain.toks, List.cons_append, List.append_assoc, List.nil_append, List.cons.injEq, true_and] at h
      replace h := TestE.toks_inj t t' _ _ h
      obtain ⟨rfl, h⟩ := h
      simp only [List.cons.injEq, true_and] at h
      replace h := Blk.toks_inj b b' _ _ (.inr ⟨_, _, rfl⟩) (.inr ⟨_, _, rfl⟩) h
      obtain ⟨rfl, h⟩ := h
      simp only [List.cons.injEq] at h
      cases c' <;> simp [Chain.toks] at h
  | .elif t b cl c, c', r, r', hr, hr', h => by
    cases c' with
    | one t' b' cl' =>
      simp only [Chain.toks, List.cons_append, List.append_assoc, List.nil_append, List.cons.injEq, true_and] at h
      replace h := TestE.toks_inj t t' _ _ h
      obtain ⟨rfl, h⟩ := h
      simp only [List.cons.injEq, true_and] at h
      replace h := Blk.toks_inj b b' _ _ (.inr ⟨_, _, rfl⟩) (.inr ⟨_, _, rfl⟩) h
      obtain ⟨rfl, h⟩ := h
      simp only [List.cons.injEq] at h
      rw [← h.2, isElse_chain] at hr'
      cases hr'
    | els t' b' cl' e' cl2' =>
      simp only [Chain.toks, List.cons_append, List.append_assoc, List.nil_append, List.cons.injEq, true_and] at h
      replace h := TestE.toks_inj t t' _ _ h
      obtain ⟨rfl, h⟩ := h
      simp only [List.cons.injEq, true_and] at h
      replace h := Blk.toks_inj b b' _ _ (.inr ⟨_, _, rfl⟩) (.inr ⟨_, _, rfl⟩) h
      obtain ⟨rfl, h⟩ := h
      simp only [List.cons.injEq] at h
      cases c <;> simp [Chain.toks] at h
    | elif t' b' cl' c' =>
      simp only [Chain.toks, List.cons_append, List.append_assoc, List.nil_append, List.cons.injEq, true_and] at h
      replace h := TestE.toks_inj t t' _ _ h
      obtain ⟨rfl, h⟩ := h
      simp only [List.cons.injEq, true_and] at h
      replace h := Blk.toks_inj b b' _ _ (.inr ⟨_, _, rfl⟩) (.inr ⟨_, _, rfl⟩) h
      obtain ⟨rfl, h⟩ := h
      simp only [List.cons.injEq, Tok.cclose.injEq] at h
      obtain ⟨rfl, h⟩ := h
      replace h := Chain.toks_inj false c c' r r' hr hr' h
      obtain ⟨rfl, h⟩ := h
      exact ⟨rfl, h⟩
end

end Sieve.Compile

namespace Sieve.Whole

open Sieve.Args Sieve.Lex Sieve.Script

variable {F : Type} [DecidableEq F]

/-- The structure of scripts whose commands and tests are read with their arguments. -/
abbrev Prog (F : Type) := Compile.Blk (Node F) (Node F) (List UInt8)

/-- `b` is the structure of the text: its words, strings and so on are read as commands and tests with their arguments, with the
extensions declared where they are used, and these are the ones of `b` in the order in which `b` is written. -/
def Structure (lx : Lex.Ext Word F) (x : Args.Ext F) (text : List UInt8) (b : Prog F) : Prop :=
  ∃ is ts nodes, IsText lx.maxString text is ∧ lex lx {} text = (ts, none) ∧ List.Forall₂ (Means lx) is ts ∧
    IsScript x [] false ts nodes ∧ nodes.map Node.tok = b.toks

/-- **C100** A text has at most one structure. -/
theorem structure_unique {lx : Lex.Ext Word F} {x : Args.Ext F} {text : List UInt8} {b b' : Prog F}
    (h : Structure lx x text b) (h' : Structure lx x text b') : b = b' := by
  obtain ⟨is, ts, nodes, -, h2, -, h4, h5⟩ := h
  obtain ⟨is', ts', nodes', -, h2', -, h4', h5'⟩ := h'
  obtain ⟨rfl, -⟩ := Prod.mk.inj (h2.symm.trans h2')
  have e := ((script_iff x ts nodes).2 h4).symm.trans ((script_iff x ts nodes').2 h4')
  injection e with e
  subst e
  have := h5.symm.trans h5'
  exact (Compile.Blk.toks_inj b b' [] [] (.inl rfl) (.inl rfl) (by simpa using this)).1

/-- **C100** A text that has a structure within the limits of the compiler is accepted. -/
theorem structure_accepted {lx : Lex.Ext Word F} {x : Args.Ext F} {lim : Compile.Limits} {maxSize : Nat} {text : List UInt8} {b : Prog F}
    (h : Structure lx x text b) (hl : text.length ≤ maxSize) (ok : b.Ok lim []) :
    ∃ ops, compileText lx x lim maxSize text = some ops ∧ Compile.compile lim b.toks = some ops := by
  obtain ⟨is, ts, nodes, -, h2, -, h4, h5⟩ := h
  have h6 := (script_iff x ts nodes).2 h4
  have h7 := Compile.compile_render b ok
  refine ⟨_, ?_, h7⟩
  unfold compileText
  rw [if_neg (by omega), h2]
  simp only [compileToks, h6, Option.bind_some, h5]
  exact h7

/-- **C100** If the items of a text are, read with their arguments, those of a script, then the script is the structure of the text. -/
theorem structure_of_items (lx : Lex.Ext Word F) (hw : lx.word = lookupWord) (x : Args.Ext F) {text : List UInt8} {is : List Script.Item}
    (h : IsText lx.maxString text is) : ∃ ts, List.Forall₂ (Means lx) is ts ∧ ∀ nodes (b : Prog F),
      IsScript x [] false ts nodes → nodes.map Node.tok = b.toks → Structure lx x text b := by
  obtain ⟨ts, h1, h2⟩ := lex_text lx hw h
  exact ⟨ts, h2, fun nodes b h3 h4 => ⟨is, ts, nodes, h, h1, h2, h3, h4⟩⟩

variable {W V P : Type} {cfg : Vm.Cfg W V P}

/-- `s` is what the compiler makes of a text with the structure `src s`. -/
structure FromText (lx : Lex.Ext Word F) (x : Args.Ext F) (lim : Compile.Limits) (maxSize : Nat)
    (I : Source.Interp cfg (Node F) (Node F) (List UInt8)) (src : Vm.Script W V P → Prog F) (s : Vm.Script W V P) : Prop where
  /-- every `continue` belongs to the innermost loop -/
  conts : (src s).Conts []
  ok : (src s).Ok lim []
  compiled : ∃ text ops, Structure lx x text (src s) ∧ compileText lx x lim maxSize text = some ops ∧ s.instrs = ops.map I.lower

theorem FromText.source {lx : Lex.Ext Word F} {x : Args.Ext F} {lim : Compile.Limits} {maxSize : Nat}
    {I : Source.Interp cfg (Node F) (Node F) (List UInt8)} {src : Vm.Script W V P → Prog F} {s : Vm.Script W V P}
    (hs : FromText lx x lim maxSize I src s) : Source.FromSource lim I src s := by
  refine ⟨hs.ok, hs.conts, ?_⟩
  obtain ⟨text, ops, h1, h2, h3⟩ := hs.compiled
  have hl : text.length ≤ maxSize := (code_written lx x lim maxSize h2).1
  obtain ⟨ops', h4, h5⟩ := structure_accepted (lim := lim) h1 hl hs.ok
  rw [h2] at h4
  injection h4 with h4
  subst h4
  exact ⟨ops, h5, h3⟩

/-- **C100** Scripts do what their texts say: in any session in which the host follows the protocol and all scripts are compiled from
texts, the outputs and the final state are those of the scripts as they are written, up to where the limit of instructions stops them. -/
theorem text_runs_partial {lx : Lex.Ext Word F} {x : Args.Ext F} {lim : Compile.Limits} {maxSize : Nat}
    {I : Source.Interp cfg (Node F) (Node F) (List UInt8)} {src : Vm.Script W V P → Prog F} {w : W} {h m}
    (hh : Vm.Hist cfg (Vm.Ctx.new w) h m) (hp : h ≠ [] → Vm.Protocol h)
    (hhost : ∀ s ∈ Vm.scriptsOf h, FromText lx x lim maxSize I src s)
    (hreg : ∀ n s, cfg.registered n = some s → FromText lx x lim maxSize I src s) :
    ∃ s, Source.SHist I src w (Source.io h) s ∧ Source.Agree m s := by
  exact Source.runs_as_written hh hp (fun s hs => (hhost s hs).source) (fun n s hs => (hreg n s hs).source)

/-! ## A text and its structure -/

/-- `require "fileinto"; if true { fileinto "y"; }` -/
def someProg : Prog Unit :=
  .cons (.act [.require [bytes "fileinto"]]) (.cons (.cond (.one (.atom .tru)
    (.cons (.act [.cmd .FileInto ⟨[], [.val (.text (bytes "y"))]⟩]) .nil) none)) .nil)

theorem someText_structure : Structure someLex someExt someText someProg := by
  obtain ⟨ts, h1, h2⟩ := lex_text someLex rfl someText_items
  have e : ts = [.ident .Require, .string (bytes "fileinto"), .semicolon, .ident .If, .ident .True, .curlyOpen,
      .ident .FileInto, .string (bytes "y"), .semicolon, .curlyClose] := by
    rw [lex_eq_lexN _ 100 _ _ (by decide +kernel)] at h1
    rw [← (Prod.mk.inj h1).1]
    decide +kernel
  refine ⟨_, ts, [.require [bytes "fileinto"], .word .If, .word .True, .openB, .cmd .FileInto ⟨[], [.val (.text (bytes "y"))]⟩, .closeB],
    someText_items, h1, h2, (script_iff _ _ _).1 ?_, rfl⟩
  rw [e]
  decide +kernel

example : someProg.Ok ⟨9, 9, 9⟩ [] ∧ someProg.Conts [] := by
  simp [someProg, Compile.Blk.Ok, Compile.Stmt.Ok, Compile.Chain.Ok, Compile.TestE.depth, Compile.Blk.Conts, Compile.Stmt.Conts,
    Compile.Chain.Conts]

end Sieve.Whole
