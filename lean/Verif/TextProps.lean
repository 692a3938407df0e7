import Verif.LexProps
import Verif.WordProps
import Verif.ScriptProps
import Verif.CompileOrder

/-!
# From the text of a script to its code

`compileText` puts the lexer, the reading of commands and the generation of code together.

* C84: nothing that is written is lost, doubled or reordered (`CompileOrder.lean` and `code_written`).
* C85: a text that consists of words, tags, numbers, strings and punctuation, with white space and comments between them,
  is read as these, and in no other way.
-/

namespace Sieve.Script

open Sieve.Args Sieve.Lex

variable {F : Type} [DecidableEq F]

/-- `Compiler::compile`, `src/compiler/grammar/instruction.rs:146-828`.  In the code the tokens are read one by one; an error
in the lexer comes up when the place is reached, unless there was another error before. -/
def compileText (lx : Lex.Ext Word F) (x : Ext F) (lim : Compile.Limits) (maxSize : Nat) (text : List UInt8) :
    Option (List (Compile.Op (Node F) (Node F) (List UInt8))) :=
  if maxSize < text.length then none
  else match lex lx {} text with
    | (ts, none) => compileToks x lim ts
    | (_, some _) => none

/-! ## Specification of texts (RFC 5228, 8.1) -/

/-- What a text is made of. -/
inductive Item where
  | word (w : Word)
  | tag (w : Word)
  | num (n : Nat)
  | str (s : List UInt8)
  | curlyOpen | curlyClose | bracketOpen | bracketClose | parenOpen | parenClose | comma | semicolon

/-- The character of a piece of punctuation. -/
def Item.char : Item → Option UInt8
  | .curlyOpen => some 123
  | .curlyClose => some 125
  | .bracketOpen => some 91
  | .bracketClose => some 93
  | .parenOpen => some 40
  | .parenClose => some 41
  | .comma => some 44
  | .semicolon => some 59
  | _ => none

/-- The text begins with a character that ends a word. -/
def Stops (r : List UInt8) : Prop := ∃ d q, r = d :: q ∧ delim d = true

/-- A line of a multi-line string as it is written, and what it means. -/
inductive IsLine : List UInt8 → List UInt8 → Prop where
  | plain {l} : 10 ∉ l → l.head? ≠ some 46 → IsLine (l ++ [10]) (l ++ [10])
  | dot {l} : 10 ∉ l → l.head? = some 46 → IsLine (46 :: l ++ [10]) (l ++ [10])

inductive IsLines : List UInt8 → List UInt8 → Prop where
  | nil : IsLines [] []
  | cons {l c ls cs} : IsLine l c → IsLines ls cs → IsLines (l ++ ls) (c ++ cs)

/-- Texts and what they say. `limit` is the limit of the length of a string. -/
inductive IsText (limit : Nat) : List UInt8 → List Item → Prop where
  | nil : IsText limit [] []
  | space {c r is} : c ∈ [(32 : UInt8), 9, 10, 13] → IsText limit r is → IsText limit (c :: r) is
  /-- `/* … */` -/
  | comment {c r is} : (∀ u v, c ≠ u ++ 42 :: 47 :: v) → IsText limit r is →
      IsText limit (47 :: 42 :: (c ++ 42 :: 47 :: r)) is
  /-- `# …` up to the end of the line -/
  | hash {c r is} : 10 ∉ c → IsText limit r is → IsText limit (35 :: (c ++ 10 :: r)) is
  | word {t w r is} : t.map lowerByte = bytes (showWord w) → Stops r → IsText limit r is →
      IsText limit (t ++ r) (.word w :: is)
  | tag {t w r is} : t.map lowerByte = bytes (showWord w) → Stops r → IsText limit r is →
      IsText limit (58 :: (t ++ r)) (.tag w :: is)
  | num {ds suf m r is} : ds ≠ [] → (∀ d ∈ ds, isDigit d) → decimal ds < 2 ^ 64 → (suf, m) ∈ units → Stops r →
      IsText limit r is → IsText limit (ds ++ suf ++ r) (.num (min (decimal ds * m) (2 ^ 64 - 1)) :: is)
  | str {c r is} : Plain c → c.length < limit → IsText limit r is →
      IsText limit (34 :: (escape c ++ 34 :: r)) (.str c :: is)
  /-- `text:`, the rest of that line, the lines, and the line with a dot -/
  | lines {t h ls c eol r is} : t.map lowerByte = bytes "text" → 10 ∉ h → IsLines ls c → eol = [10] ∨ eol = [13, 10] →
      c.length < limit → IsText limit r is → IsText limit (t ++ 58 :: (h ++ 10 :: (ls ++ 46 :: (eol ++ r)))) (.str c :: is)
  | punct {i c r is} : Item.char i = some c → IsText limit r is → IsText limit (c :: r) (i :: is)

/-- The token of the lexer for an item. -/
def Means (lx : Lex.Ext Word F) : Item → Tok F → Prop
  | .word w, t => t = .ident w
  | .tag w, t => t = .tag w
  | .num n, t => t = .number n
  | .str c, t => t.text lx = some c ∧ ((∃ v, t = .stringVar v) ↔ HasVar c)
  | .curlyOpen, t => t = .curlyOpen
  | .curlyClose, t => t = .curlyClose
  | .bracketOpen, t => t = .bracketOpen
  | .bracketClose, t => t = .bracketClose
  | .parenOpen, t => t = .parenOpen
  | .parenClose, t => t = .parenClose
  | .comma, t => t = .comma
  | .semicolon, t => t = .semicolon

/-! ## C85: texts are read as what they say -/

theorem isLine_split {l c : List UInt8} (h : IsLine l c) : ∃ ln, l = ln ++ [10] ∧ c = undot ln ++ [10] ∧ Inner ln := by
  cases h with
  | @plain l h1 h2 =>
    refine ⟨l, rfl, ?_, h1, ?_, ?_⟩
    · cases l with
      | nil => rfl
      | cons a l =>
        have : a ≠ 46 := fun e => h2 (by rw [e]; rfl)
        cases l <;> simp [undot, this]
    · rintro rfl; exact h2 rfl
    · rintro rfl; exact h2 rfl
  | @dot l h1 h2 =>
    obtain ⟨l, rfl⟩ : ∃ l', l = 46 :: l' := by
      cases l with
      | nil => simp at h2
      | cons a l => simp at h2; exact ⟨l, by rw [h2]⟩
    refine ⟨46 :: 46 :: l, rfl, rfl, ?_, by simp, by simp⟩
    simpa using h1

theorem isLines_split {l c : List UInt8} (h : IsLines l c) : ∃ lns : List (List UInt8),
    l = lns.flatMap (fun ln => ln ++ [10]) ∧ c = lns.flatMap (fun ln => undot ln ++ [10]) ∧ ∀ ln ∈ lns, Inner ln := by
  induction h with
  | nil => exact ⟨[], rfl, rfl, by simp⟩
  | cons hl _ ih =>
    obtain ⟨ln, rfl, rfl, h1⟩ := isLine_split hl
    obtain ⟨lns, rfl, rfl, h2⟩ := ih
    exact ⟨ln :: lns, rfl, rfl, by simpa using ⟨h1, h2⟩⟩

theorem lower_letter (c : UInt8) (h : isLower (lowerByte c) = true) : letter c = true := by
  rw [lowerByte_eq] at h
  rw [letter_eq, Bool.or_eq_true]
  split at h
  · exact .inr (by assumption)
  · exact .inl h

theorem text_letters {t : List UInt8} (h : t.map lowerByte = bytes "text") : ∀ c ∈ t, letter c = true := by
  intro c hc
  refine lower_letter c ?_
  have h1 : lowerByte c ∈ bytes "text" := h ▸ List.mem_map_of_mem hc
  have h2 : ∀ d ∈ bytes "text", isLower d = true := by decide +kernel
  exact h2 _ h1

theorem lex_text (lx : Lex.Ext Word F) (hw : lx.word = lookupWord) {text : List UInt8} {is : List Item}
    (h : IsText lx.maxString text is) :
    ∃ ts, lex lx {} text = (ts, none) ∧ List.Forall₂ (Means lx) is ts := by
  induction h with
  | nil => exact ⟨[], lex_nil lx {} rfl, .nil⟩
  | @space c r is hc _ ih =>
    obtain ⟨ts, h1, h2⟩ := ih
    refine ⟨ts, ?_, h2⟩
    have hb : blank c := by
      simp only [List.mem_cons, List.not_mem_nil, or_false] at hc
      rcases hc with rfl | rfl | rfl | rfl <;> decide
    rw [lex_blank lx {} c r rfl hb]
    exact (by simpa [current, reset] using h1)
  | @comment c r is hc _ ih =>
    obtain ⟨ts, h1, h2⟩ := ih
    refine ⟨ts, ?_, h2⟩
    rw [comment_here lx {} rfl c r hc, lex_blank lx {} 32 r rfl (by decide)]
    exact (by simpa [current, reset] using h1)
  | @hash c r is hc _ ih =>
    obtain ⟨ts, h1, h2⟩ := ih
    refine ⟨ts, ?_, h2⟩
    rw [hash_here lx {} rfl c r hc, lex_blank lx {} 10 r rfl (by decide)]
    exact (by simpa [current, reset] using h1)
  | @word t w r is ht hs _ ih =>
    obtain ⟨ts, h1, h2⟩ := ih
    obtain ⟨d, q, rfl, hd⟩ := hs
    refine ⟨.ident w :: ts, ?_, .cons rfl h2⟩
    have := word_read lx hw 0 t w ht d q hd
    rw [h1] at this; exact this
  | @tag t w r is ht hs _ ih =>
    obtain ⟨ts, h1, h2⟩ := ih
    obtain ⟨d, q, rfl, hd⟩ := hs
    refine ⟨.tag w :: ts, ?_, .cons rfl h2⟩
    have := tag_read lx hw 0 t w ht d q hd
    rw [h1] at this; exact this
  | @num ds suf m r is h0 hd hv hu hs _ ih =>
    obtain ⟨ts, h1, h2⟩ := ih
    obtain ⟨d, q, rfl, hdl⟩ := hs
    refine ⟨_ :: ts, ?_, .cons rfl h2⟩
    have := number_partial lx (words_ok lx hw) 0 ds suf m h0 hd hu d q hdl hv
    rw [h1] at this; exact this
  | @str c r is hp hl _ ih =>
    obtain ⟨ts, h1, h2⟩ := ih
    obtain ⟨t, ht, hv, he⟩ := (quoted_string_partial lx {} rfl c r hp).1 hl
    refine ⟨t :: ts, ?_, .cons ⟨ht, hv⟩ h2⟩
    rw [he]
    have e : reset {} = {} := rfl
    rw [e, h1]; rfl
  | @lines t h ls c eol r is ht hh hls he hl _ ih =>
    obtain ⟨ts, h1, h2⟩ := ih
    obtain ⟨lns, rfl, rfl, hin⟩ := isLines_split hls
    obtain ⟨t', ht', hv, hlex⟩ := multi_line lx 0 t h lns eol r (ht.trans (by decide +kernel)) (text_letters ht) hh hin he hl
    refine ⟨t' :: ts, ?_, .cons ⟨ht', hv⟩ h2⟩
    rw [h1] at hlex
    exact hlex
  | @punct i c r is hi _ ih =>
    obtain ⟨ts, h1, h2⟩ := ih
    cases i <;> simp only [Item.char, reduceCtorEq, Option.some.injEq] at hi <;> subst hi <;>
      (refine ⟨_ :: ts, ?_, .cons rfl h2⟩
       rw [lex_go lx (s' := { last := _ }) (k := 0) (ts := [_]) rfl]
       simp only [List.drop_zero, ← lex_last lx {} _ rfl, h1]
       rfl)

/-- C85: a text is read as what it says: if it is made of these items, then these are the tokens that are compiled.
The full claim would hold for all quoted strings, also those with a backslash before one of the characters that the code reads differently (C33). -/
theorem text_tokens_partial (lx : Lex.Ext Word F) (hw : lx.word = lookupWord) (x : Ext F) (lim : Compile.Limits) (maxSize : Nat)
    {text : List UInt8} {is : List Item} (h : IsText lx.maxString text is) (hl : text.length ≤ maxSize) :
    ∃ ts, List.Forall₂ (Means lx) is ts ∧ compileText lx x lim maxSize text = compileToks x lim ts := by
  obtain ⟨ts, h1, h2⟩ := lex_text lx hw h
  refine ⟨ts, h2, ?_⟩
  unfold compileText
  rw [if_neg (by omega), h1]

theorem means_unique {lx : Lex.Ext Word F} {i j : Item} {t : Tok F} (h : Means lx i t) (h' : Means lx j t) : i = j := by
  cases i with
  | str c =>
    cases j with
    | str d => rw [Option.some.inj (h.1.symm.trans h'.1)]
    | _ => simp only [Means] at h'; rw [h'] at h; cases h.1
  | _ =>
    simp only [Means] at h
    subst h
    cases j <;> simp_all [Means, Token.text]

/-- C85: a text has no two meanings. -/
theorem text_unique {limit : Nat} {text : List UInt8} {is js : List Item} (h : IsText limit text is)
    (h' : IsText limit text js) : is = js := by
  let lx : Lex.Ext Word Unit := ⟨lookupWord, fun _ => none, fun _ => [], fun _ => none, fun _ => [], limit⟩
  obtain ⟨ts, h1, h2⟩ := lex_text lx rfl h
  obtain ⟨ts', h1', h2'⟩ := lex_text lx rfl h'
  obtain ⟨rfl, -⟩ := Prod.mk.inj (h1.symm.trans h1')
  clear h1 h1' h h'
  induction h2 generalizing js with
  | nil => cases h2'; rfl
  | cons a _ ih =>
    cases h2' with
    | cons b hb => rw [means_unique a b, ih hb]

/-! ## C84: from the text to the code -/

/-- What a command, a test or another element of a script puts into the code: nothing for the words that make its
structure, the expression of `while` and of `eval`, a test and an action for `vacation`, and itself for the others. -/
def Node.puts : Node F → List (Compile.Content (Node F) (Node F) (List UInt8))
  | .word w => if w = .Return then [.ret] else if w = .True ∨ w = .False then [.lit] else []
  | .foreverypart _ => [.part]
  | .loop e => [.expr e]
  | .cmd w g =>
    if w = .Vacation then [.test (.cmd w g), .act (.cmd w g)]
    else if w = .Eval then g.pos.flatMap fun a => match a with | .text e => [.expr e] | _ => []
    else [.act (.cmd w g)]
  | .test w g =>
    if w = .Eval then g.pos.flatMap fun a => match a with | .text e => [.expr e] | _ => []
    else [.test (.test w g)]
  | .require names => [.act (.require names)]
  | .skip t => [.act (.skip t)]
  | .bad t => [.bad (.bad t)]
  | .brk _ | .openB | .closeB | .comma | .popen | .pclose => []

/-- An expression has one positional argument, which is its text; the words of the structure are those of the structure. -/
def Node.Single (n : Node F) : Prop :=
  (∀ g, n = .cmd .Eval g ∨ n = .test .Eval g → ∃ e, g.pos = [.text e]) ∧
  ∀ w, n = .word w → w ∈ [Word.If, .ElsIf, .Else, .Continue, .Return, .Not, .AnyOf, .AllOf, .True, .False]

theorem reads_expr {x : Ext F} {has : Cap → Bool} {w : Word} {u r : List (Tok F)} {g : Got F}
    (h : Reads x has w (.args [] [.expr] false) u r g) : ∃ e, g.pos = [.text e] := by
  cases h with
  | @args _ _ items _ ha hc =>
    have := ha.pos
    cases hp : plainOf items with
    | nil => rw [hp] at this; cases this
    | cons q qs =>
      rw [hp] at this
      cases this with
      | cons h1 h2 =>
        cases h2
        have e : (gotOf items).pos = [q.2] := by
          show (plainOf items).map (·.2) = _
          rw [hp]
          rfl
        rw [e]
        obtain ⟨q1, q2⟩ := q
        cases h1 with
        | expr => exact ⟨_, rfl⟩
        | exprVar => exact ⟨_, rfl⟩

theorem script_single {x : Ext F} {pre : List (Node F)} {t : Bool} {ts : List (Tok F)} {nodes : List (Node F)}
    (h : IsScript x pre t ts nodes) : ∀ n ∈ nodes, n.Single := by
  have simple : ∀ n : Node F, (∀ w g, n ≠ .cmd w g) → (∀ w g, n ≠ .test w g) → (∀ w, n ≠ .word w) → n.Single :=
    fun n h1 h2 h3 => ⟨fun g hg => hg.elim (fun e => absurd e (h1 _ _)) (fun e => absurd e (h2 _ _)), fun w e => absurd e (h3 _)⟩
  have word : ∀ w ∈ [Word.If, .ElsIf, .Else, .Continue, .Return, .Not, .AnyOf, .AllOf, .True, .False], (Node.word w : Node F).Single :=
    fun w hw => ⟨fun g hg => (by rcases hg with hg | hg <;> cases hg), fun w' e => (by injection e with e; subst e; exact hw)⟩
  induction h with
  | nil => simp
  | piece hp _ _ _ ih =>
    intro n hn
    rcases List.mem_append.1 hn with hn | hn
    · cases hp with
      | @cmd w e u r g h1 h2 h3 =>
        simp only [List.mem_singleton] at hn
        subst hn
        refine ⟨fun g' hg => ?_, fun w e => by cases e⟩
        rcases hg with hg | hg
        · injection hg with e1 e2
          subst e1 e2
          injection h1 with h1
          subst h1
          exact reads_expr h3
        · cases hg
      | «if» => simp only [List.mem_singleton] at hn; subst hn; exact word _ (by decide)
      | elsif => simp only [List.mem_singleton] at hn; subst hn; exact word _ (by decide)
      | «continue» => simp only [List.mem_singleton] at hn; subst hn; exact word _ (by decide)
      | «return» => simp only [List.mem_singleton] at hn; subst hn; exact word _ (by decide)
      | «else» =>
        simp only [List.mem_cons, List.not_mem_nil, or_false] at hn
        rcases hn with rfl | rfl
        · exact word _ (by decide)
        · exact simple _ (by simp) (by simp) (by simp)
      | _ =>
        simp only [List.mem_cons, List.not_mem_nil, or_false] at hn
        first
          | (subst hn; exact simple _ (by simp) (by simp) (by simp))
          | (rcases hn with rfl | rfl <;> exact simple _ (by simp) (by simp) (by simp))
    · exact ih n hn
  | test hp _ ih =>
    intro n hn
    rcases List.mem_append.1 hn with hn | hn
    · cases hp with
      | @test w e u r g h1 h2 h3 =>
        simp only [List.mem_singleton] at hn
        subst hn
        refine ⟨fun g' hg => ?_, fun w e => by cases e⟩
        rcases hg with hg | hg
        · cases hg
        · injection hg with e1 e2
          subst e1 e2
          injection h1 with h1
          subst h1
          exact reads_expr h3
      | word hw =>
        simp only [List.mem_singleton] at hn
        subst hn
        refine word _ ?_
        unfold structural at hw
        simp only [List.mem_cons, List.not_mem_nil, or_false] at hw ⊢
        rcases hw with h | h | h | h | h <;> simp [h]
      | _ =>
        simp only [List.mem_singleton] at hn
        subst hn
        exact simple _ (by simp) (by simp) (by simp)
    · exact ih n hn

theorem flatMap_eq {α β : Type} {f g : α → List β} : ∀ {l : List α}, (∀ a ∈ l, f a = g a) → l.flatMap f = l.flatMap g
  | [], _ => rfl
  | a :: l, h => by
    rw [List.flatMap_cons, List.flatMap_cons, h a (List.mem_cons_self ..), flatMap_eq fun b hb => h b (List.mem_cons_of_mem _ hb)]

/-- The parts of the control structure for the commands and tests that are not part of it. -/
theorem tok_cmd (w : Word) (g : Got F) (h1 : w ≠ .Eval) (h2 : w ≠ .Vacation) : (Node.cmd w g).tok = .act [.cmd w g] := by
  unfold Node.tok
  split <;> first | rfl | contradiction | (rename_i h; cases h; contradiction) | (rename_i h; cases h; rfl)

theorem tok_test (w : Word) (g : Got F) (h1 : w ≠ .Eval) : (Node.test w g).tok = .leaf (.test w g) := by
  unfold Node.tok
  split <;> first | rfl | contradiction | (rename_i h; cases h; contradiction) | (rename_i h; cases h; rfl)

theorem tok_puts {n : Node F} (h : n.Single) : n.tok.atoms = n.puts := by
  cases n with
  | word w =>
    have := h.2 w rfl
    simp only [List.mem_cons, List.not_mem_nil, or_false] at this
    rcases this with rfl | rfl | rfl | rfl | rfl | rfl | rfl | rfl | rfl | rfl <;> rfl
  | cmd w g =>
    by_cases h1 : w = .Eval
    · subst h1
      obtain ⟨e, he⟩ := h.1 g (.inl rfl)
      have : (Node.cmd .Eval g).tok = .keval e := by simp only [Node.tok, he]
      rw [this]
      simp [Node.puts, he, Compile.Tok.atoms]
    · by_cases h2 : w = .Vacation
      · subst h2; rfl
      · rw [tok_cmd w g h1 h2]
        simp [Node.puts, h1, h2, Compile.Tok.atoms]
  | test w g =>
    by_cases h1 : w = .Eval
    · subst h1
      obtain ⟨e, he⟩ := h.1 g (.inr rfl)
      have : (Node.test .Eval g).tok = .ev e := by simp only [Node.tok, he]
      rw [this]
      simp [Node.puts, he, Compile.Tok.atoms]
    · rw [tok_test w g h1]
      simp [Node.puts, h1, Compile.Tok.atoms]
  | _ => rfl

/-- C84: in a script every element is one the control structure knows. -/
theorem script_known {x : Ext F} {pre : List (Node F)} {t : Bool} {ts : List (Tok F)} {nodes : List (Node F)}
    (h : IsScript x pre t ts nodes) : ∀ n ∈ nodes, n.tok ≠ .other := by
  intro n hn
  have h := script_single h n hn
  cases n with
  | word w =>
    have := h.2 w rfl
    simp only [List.mem_cons, List.not_mem_nil, or_false] at this
    rcases this with rfl | rfl | rfl | rfl | rfl | rfl | rfl | rfl | rfl | rfl <;> (intro e; cases e)
  | cmd w g =>
    by_cases h1 : w = .Eval
    · subst h1
      obtain ⟨e, he⟩ := h.1 g (.inl rfl)
      have : (Node.cmd .Eval g).tok = .keval e := by simp only [Node.tok, he]
      rw [this]
      simp
    · by_cases h2 : w = .Vacation
      · subst h2; intro e; cases e
      · rw [tok_cmd w g h1 h2]
        simp
  | test w g =>
    by_cases h1 : w = .Eval
    · subst h1
      obtain ⟨e, he⟩ := h.1 g (.inr rfl)
      have : (Node.test .Eval g).tok = .ev e := by simp only [Node.tok, he]
      rw [this]
      simp
    · rw [tok_test w g h1]
      simp
  | _ => intro e; cases e

/-- C84: the code of a text has exactly the commands, tests and expressions of the script that the text is, in their
order. -/
theorem code_written (lx : Lex.Ext Word F) (x : Ext F) (lim : Compile.Limits) (maxSize : Nat) {text : List UInt8}
    {ops : List (Compile.Op (Node F) (Node F) (List UInt8))} (h : compileText lx x lim maxSize text = some ops) :
    text.length ≤ maxSize ∧ ∃ ts nodes, lex lx {} text = (ts, none) ∧ IsScript x [] false ts nodes ∧
      Compile.inCode ops = nodes.flatMap Node.puts := by
  unfold compileText at h
  split at h
  · cases h
  · rename_i hl
    refine ⟨by omega, ?_⟩
    split at h
    · rename_i ts he
      obtain ⟨nodes, h1, h2⟩ := Option.bind_eq_some_iff.1 h
      have h3 := (script_iff x ts nodes).1 h1
      refine ⟨ts, nodes, he, h3, (Compile.compile_order h2).trans ?_⟩
      rw [Compile.written, List.flatMap_map]
      exact flatMap_eq fun n hn => tok_puts (script_single h3 n hn)
    · cases h

theorem mem_inCode {A T E : Type} {ops : List (Compile.Op A T E)} {a : A} (h : Compile.Op.plain a ∈ ops) :
    Compile.Content.act a ∈ Compile.inCode ops :=
  List.mem_flatMap.2 ⟨_, h, by simp [Compile.Op.atoms]⟩

theorem mem_testCode {A T E : Type} {ops : List (Compile.Op A T E)} {t : T} {b : Bool} (h : Compile.Op.test t b ∈ ops) :
    Compile.Content.test t ∈ Compile.inCode ops :=
  List.mem_flatMap.2 ⟨_, h, by simp [Compile.Op.atoms]⟩

theorem puts_self {m n : Node F} (h : Compile.Content.act n ∈ m.puts ∨ Compile.Content.test n ∈ m.puts) : n = m := by
  have expr : ∀ (l : List (Arg F)) (c : Compile.Content (Node F) (Node F) (List UInt8)),
      c ∈ (l.flatMap fun a => match a with | .text e => [.expr e] | _ => []) → ∃ e, c = .expr e := by
    intro l c hc
    obtain ⟨a, -, ha⟩ := List.mem_flatMap.1 hc
    split at ha
    · exact ⟨_, List.mem_singleton.1 ha⟩
    · cases ha
  unfold Node.puts at h
  split at h
  all_goals repeat' split at h
  all_goals first
    | (simp at h; exact h)
    | (simp at h; done)
    | (rcases h with h | h <;> (obtain ⟨e, he⟩ := expr _ _ h; cases he))

/-- C84, C82: no command and no test of an extension gets into the code unless the script names the extension in a `require`
before it. -/
theorem code_declared_partial (lx : Lex.Ext Word F) (x : Ext F) (lim : Compile.Limits) (maxSize : Nat) {text : List UInt8}
    {ops : List (Compile.Op (Node F) (Node F) (List UInt8))} (h : compileText lx x lim maxSize text = some ops)
    {n : Node F} (hn : .plain n ∈ ops ∨ ∃ b, .test n b ∈ ops) {c : Cap} (hc : Needs n c)
    (hx : x.noCheck = false ∨ c = .Ihave) :
    ∃ ts before names middle after, lex lx {} text = (ts, none) ∧
      script x ts = some (before ++ .require names :: (middle ++ n :: after)) ∧ Names names c := by
  obtain ⟨-, ts, nodes, h1, h2, h3⟩ := code_written lx x lim maxSize h
  have hm : n ∈ nodes := by
    have : Compile.Content.act n ∈ Compile.inCode ops ∨ Compile.Content.test n ∈ Compile.inCode ops := by
      rcases hn with hn | ⟨b, hn⟩
      · exact .inl (mem_inCode hn)
      · exact .inr (mem_testCode hn)
    rw [h3] at this
    rcases this with h | h <;>
      (obtain ⟨m, hm, ha⟩ := List.mem_flatMap.1 h
       first | rw [puts_self (.inl ha)] | rw [puts_self (.inr ha)]
       exact hm)
  obtain ⟨p, q, rfl⟩ := List.append_of_mem hm
  have hs := (script_iff x ts _).2 h2
  obtain ⟨before, names, after, rfl, hN, -⟩ := declared_before_partial x hs hc hx
  exact ⟨ts, before, names, after, q, h1, by simpa using hs, hN⟩

/-! ## A text -/

def someLex : Lex.Ext Word Unit := ⟨lookupWord, fun _ => none, fun _ => [], fun _ => none, fun _ => [], 100⟩

def someText : List UInt8 := bytes "require \"fileinto\"; # x\nIF true{ FileInto \"y\"; /* z */ }\n"

theorem someText_items : IsText 100 someText [.word .Require, .str (bytes "fileinto"), .semicolon, .word .If, .word .True,
    .curlyOpen, .word .FileInto, .str (bytes "y"), .semicolon, .curlyClose] := by
  have e : someText = bytes "require" ++ 32 :: 34 :: (escape (bytes "fileinto") ++ 34 :: 59 :: 32 :: 35 :: (bytes " x" ++ 10 ::
      (bytes "IF" ++ 32 :: (bytes "true" ++ 123 :: 32 :: (bytes "FileInto" ++ 32 :: 34 :: (escape (bytes "y") ++ 34 :: 59 :: 32 ::
      47 :: 42 :: (bytes " z " ++ 42 :: 47 :: [32, 125, 10]))))))) := by decide +kernel
  have plain : ∀ c : List UInt8, 92 ∉ c → Plain c := by
    intro c h
    refine ⟨fun u e => h (by simp [e]), fun u d v e => absurd (by simp [e]) h⟩
  rw [e]
  refine .word (by decide +kernel) ⟨32, _, rfl, by decide⟩ (.space (by decide) (.str (plain _ (by decide +kernel))
    (by decide +kernel) (.punct rfl (.space (by decide) (.hash (by decide +kernel) (.word (by decide +kernel) ⟨32, _, rfl, by decide⟩
    (.space (by decide) (.word (by decide +kernel) ⟨123, _, rfl, by decide⟩ (.punct rfl (.space (by decide)
    (.word (by decide +kernel) ⟨32, _, rfl, by decide⟩ (.space (by decide) (.str (plain _ (by decide +kernel)) (by decide +kernel)
    (.punct rfl (.space (by decide) (.comment ?_ (.space (by decide) (.punct rfl (.space (by decide) .nil)))))))))))))))))))
  intro u v e
  have h : (42 : UInt8) ∉ bytes " z " := by decide +kernel
  exact h (by rw [e]; simp)

example : (compileText someLex someExt ⟨9, 9, 9⟩ 1000 someText).map Compile.inCode = some [.act (.require [bytes "fileinto"]), .lit,
    .act (.cmd .FileInto ⟨[], [.val (.text (bytes "y"))]⟩)] := by
  unfold compileText
  rw [lex_eq_lexN _ 100 _ _ (by decide +kernel)]
  decide +kernel

end Sieve.Script
