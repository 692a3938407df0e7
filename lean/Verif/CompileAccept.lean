import Verif.BlockCompile

/-!
# What accepted scripts look like

C07 and C08 speak of scripts that are written properly and of the code of accepted scripts.  Here is
the converse direction: what every script accepted by the compiler must satisfy.  Braces match and
are nested no deeper than the limit; `break` stands inside a loop; `break :name` inside a
`foreverypart` of that name; and `elsif` and `else` belong to an `if`, up to a flaw that is shown by
example at the end of the file, together with the two other rules that the compiler fails to enforce.

The specification only counts braces in the list of tokens.
-/

namespace Sieve.Compile

variable {A T E : Type}

/-- The number of opening braces. -/
def opens : List (Tok A T E) → Nat
  | [] => 0
  | .copen :: ts => opens ts + 1
  | _ :: ts => opens ts

/-- The number of closing braces. -/
def closes : List (Tok A T E) → Nat
  | [] => 0
  | .cclose _ :: ts => closes ts + 1
  | _ :: ts => closes ts

/-- Nothing that is open before `ts` is closed in it. -/
def StaysOpen (ts : List (Tok A T E)) : Prop := ∀ p q, ts = p ++ q → closes p ≤ opens p

/-- The braces of `ts` match. -/
def Matched (ts : List (Tok A T E)) : Prop := StaysOpen ts ∧ opens ts = closes ts

/-- Nothing but the tokens of a test. -/
def TestToks (ts : List (Tok A T E)) : Prop :=
  ∀ t ∈ ts, t ∈ [Tok.comma, .popen, .pclose, .knot, .kanyof, .kallof, .ktrue, .kfalse] ∨
    (∃ x, t = .leaf x) ∨ (∃ x, t = .ev x) ∨ ∃ x, t = .bad x

/-- After `ts` we are in a block, not closed yet, that starts with the token `k`. -/
def Inside' (k : Tok A T E) (ts : List (Tok A T E)) : Prop :=
  ∃ p h r, ts = p ++ k :: (h ++ .copen :: r) ∧ TestToks h ∧ StaysOpen r

/-- `ts` ends with the closing brace of a block that starts with the token `k`. -/
def Ended (k : Tok A T E) (ts : List (Tok A T E)) : Prop :=
  ∃ p h r c, ts = p ++ k :: (h ++ .copen :: (r ++ [.cclose c])) ∧ TestToks h ∧ Matched r

/-! ## Counting -/

@[simp] theorem opens_append : ∀ a b : List (Tok A T E), opens (a ++ b) = opens a + opens b
  | [], b => by simp [opens]
  | t :: a, b => by
    have := opens_append a b
    cases t <;> simp [opens, this] <;> omega

@[simp] theorem closes_append : ∀ a b : List (Tok A T E), closes (a ++ b) = closes a + closes b
  | [], b => by simp [closes]
  | t :: a, b => by
    have := closes_append a b
    cases t <;> simp [closes, this] <;> omega

/-- No braces. -/
def NoBrace (ts : List (Tok A T E)) : Prop := opens ts = 0 ∧ closes ts = 0

theorem NoBrace.left {a b : List (Tok A T E)} (h : NoBrace (a ++ b)) : NoBrace a := by
  obtain ⟨h1, h2⟩ := h
  simp at h1 h2
  exact ⟨h1.1, h2.1⟩

theorem TestToks.noBrace : ∀ {ts : List (Tok A T E)}, TestToks ts → NoBrace ts
  | [], _ => ⟨rfl, rfl⟩
  | t :: ts, h => by
    have h2 : NoBrace ts := TestToks.noBrace (fun x hx => h x (by simp [hx]))
    have h1 := h t (by simp)
    obtain ⟨ha, hb⟩ := h2
    rcases h1 with h1 | ⟨x, rfl⟩ | ⟨x, rfl⟩ | ⟨x, rfl⟩
    · simp at h1
      rcases h1 with rfl | rfl | rfl | rfl | rfl | rfl | rfl | rfl <;> exact ⟨ha, hb⟩
    all_goals exact ⟨ha, hb⟩

theorem TestToks.append {a b : List (Tok A T E)} (h : TestToks a) (h' : TestToks b) : TestToks (a ++ b) := by
  intro t ht
  rcases List.mem_append.1 ht with ht | ht
  · exact h t ht
  · exact h' t ht

theorem TestToks.cons {t : Tok A T E} {ts} (h : TestToks [t]) (h' : TestToks ts) : TestToks (t :: ts) :=
  TestToks.append h h'

theorem append_eq_append_cons {α} {a b p q : List α} (h : a ++ b = p ++ q) :
    (∃ z, a = p ++ z ∧ q = z ++ b) ∨ ∃ z, p = a ++ z ∧ b = z ++ q := by
  rcases List.append_eq_append_iff.1 h with ⟨z, h1, h2⟩ | ⟨z, h1, h2⟩
  · exact .inr ⟨z, h1, h2⟩
  · exact .inl ⟨z, h1, h2⟩

theorem StaysOpen.nil : StaysOpen ([] : List (Tok A T E)) := by
  intro p q h
  simp at h
  simp [h.1, closes]

theorem StaysOpen.append {a b : List (Tok A T E)} (h : StaysOpen a)
    (h' : ∀ p q, b = p ++ q → closes a + closes p ≤ opens a + opens p) : StaysOpen (a ++ b) := by
  intro p q e
  rcases append_eq_append_cons e with ⟨z, h1, _⟩ | ⟨z, h1, h2⟩
  · exact h p z h1
  · rw [h1]
    simpa using h' z q h2

theorem StaysOpen.noBrace {a b : List (Tok A T E)} (h : StaysOpen a) (hb : NoBrace b) : StaysOpen (a ++ b) := by
  refine h.append ?_
  intro p q e
  subst e
  have h1 := h a [] (by simp)
  have h2 := hb.left
  rw [h2.1, h2.2]
  simpa using h1

theorem Matched.nil : Matched ([] : List (Tok A T E)) := ⟨.nil, rfl⟩

theorem Matched.noBrace {a b : List (Tok A T E)} (h : Matched a) (hb : NoBrace b) : Matched (a ++ b) :=
  ⟨h.1.noBrace hb, by simp [h.2, hb.1, hb.2]⟩

theorem StaysOpen.cons_open {a : List (Tok A T E)} (h : StaysOpen a) : StaysOpen (.copen :: a) := by
  intro p q e
  cases p with
  | nil => simp [closes]
  | cons t p =>
    simp only [List.cons_append, List.cons.injEq] at e
    obtain ⟨rfl, e⟩ := e
    have := h p q e
    simp only [closes, opens]
    omega

theorem StaysOpen.trans {a b : List (Tok A T E)} (h : StaysOpen a) (h' : StaysOpen b) : StaysOpen (a ++ b) := by
  refine h.append ?_
  intro p q e
  have h1 := h a [] (by simp)
  have h2 := h' p q e
  omega

/-- A matched text followed by a block is matched. -/
theorem Matched.block {a r : List (Tok A T E)} {k : Tok A T E} {h : List (Tok A T E)} {c} (ha : Matched a)
    (hk : NoBrace (k :: h)) (hr : Matched r) :
    Matched (a ++ k :: (h ++ .copen :: (r ++ [.cclose c]))) := by
  have e : a ++ k :: (h ++ .copen :: (r ++ [.cclose c])) = (a ++ k :: h) ++ ((.copen :: r) ++ [.cclose c]) := by simp
  have hs := ha.noBrace hk
  rw [e]
  refine ⟨hs.1.trans ?_, ?_⟩
  · refine hr.1.cons_open.append ?_
    intro p q e
    have hm := hr.2
    cases p with
    | nil => simp only [closes, opens]; omega
    | cons t p =>
      simp only [List.cons_append, List.cons.injEq] at e
      obtain ⟨rfl, e⟩ := e
      have : p = [] := by
        cases p with
        | nil => rfl
        | cons _ _ => simp at e
      subst this
      simp only [closes, opens]
      omega
  · have h1 := hs.2
    have h2 := hr.2
    simp only [opens_append, closes_append, opens, closes] at h1 h2 ⊢
    omega

/-! ## What a round reads -/

theorem expectClose_toks : ∀ (n : Nat) (ts ts' : List (Tok A T E)), expectClose n ts = some ts' →
    ∃ u, ts = u ++ ts' ∧ TestToks u
  | 0, ts, ts', h => by
    simp [expectClose] at h
    exact ⟨[], by simp [h], by simp [TestToks]⟩
  | n + 1, ts, ts', h => by
    cases ts with
    | nil => simp [expectClose] at h
    | cons t ts =>
      cases t <;> simp [expectClose] at h
      obtain ⟨u, h1, h2⟩ := expectClose_toks n _ _ h
      exact ⟨.pclose :: u, by simp [h1], TestToks.cons (by simp [TestToks]) h2⟩

theorem atom_toks {t : Tok A T E} {n r} (h : atom t n = some r) : TestToks [t] := by
  cases t <;> simp [atom] at h <;> simp [TestToks]

theorem parseLoop_toks (m : Nat) (ts : List (Tok A T E)) (ops : List (Op A T E)) (b : TBlock) (st : List TBlock)
    (isNot : Bool) : ∀ {ts' ops'}, parseLoop m ts ops b st isNot = some (ts', ops') →
      ∃ u, ts = u ++ ts' ∧ TestToks u := by
  fun_induction parseLoop m ts ops b st isNot with
  | case19 =>
    intro _ _ h
    rename_i h0 _ h1 _ _ _
    obtain ⟨u, e, hu⟩ := expectClose_toks _ _ _ h1
    simp only [Option.some.injEq, Prod.mk.injEq] at h
    refine ⟨_ :: u, ?_, TestToks.cons (atom_toks (by assumption)) hu⟩
    rw [e, h.1]
    rfl
  | case20 =>
    intro _ _ h
    rename_i h1 _ ih _ _
    obtain ⟨u, e, hu⟩ := expectClose_toks _ _ _ h1
    obtain ⟨w, e', hw⟩ := ih h
    refine ⟨_ :: (u ++ w), ?_, TestToks.cons (atom_toks (by assumption)) (hu.append hw)⟩
    rw [e, e']
    simp
  | _ =>
    intro ts' ops' h
    first
    | (simp at h; done)
    | (simp only [Option.some.injEq, Prod.mk.injEq] at h
       exact ⟨[_], by rw [h.1]; rfl, by simp [TestToks]⟩)
    | (rename_i ih
       obtain ⟨w, e', hw⟩ := ih h
       first
       | exact ⟨_ :: w, by rw [e']; rfl, TestToks.cons (by simp [TestToks]) hw⟩
       | exact ⟨_ :: _ :: w, by rw [e']; rfl, TestToks.cons (by simp [TestToks]) (TestToks.cons (by simp [TestToks]) hw)⟩)
    | (rename_i ih _
       obtain ⟨w, e', hw⟩ := ih h
       first
       | exact ⟨_ :: w, by rw [e']; rfl, TestToks.cons (by simp [TestToks]) hw⟩
       | exact ⟨_ :: _ :: w, by rw [e']; rfl, TestToks.cons (by simp [TestToks]) (TestToks.cons (by simp [TestToks]) hw)⟩)

theorem parseTest_toks {m : Nat} {ts : List (Tok A T E)} {ops : List (Op A T E)} {ts' ops'}
    (h : parseTest m ts ops = some (ts', ops')) : ∃ u, ts = u ++ ts' ∧ TestToks u := parseLoop_toks _ _ _ _ _ _ h

/-- The token that starts a block of a kind, with its label. -/
def Heads (t : BType) (l : Option String) (k : Tok A T E) : Prop :=
  match t with
  | .root => False
  | .if_ => k = .kif
  | .elsif => k = .kelsif
  | .else_ => k = .kelse
  | .while_ => ∃ e, k = .kwhile e
  | .fep => k = .kfep l

def Block.sig' (b : Block) : BType × Option String := (b.btype, b.label)

/-- What a round does to the blocks. -/
inductive Shape (lim : Limits) (s s' : State A T E) (t : Tok A T E) (ts ts' : List (Tok A T E)) : Prop where
  | plain (e : ts' = ts) (nb : NoBrace [t]) (hb : s'.blocks.map Block.sig' = s.blocks.map Block.sig')
      (hl : s'.lastType = s.lastType) (hk : t ≠ .kelse ∧ t ≠ .kelsif)
  | opn (h : List (Tok A T E)) (b : BType) (l : Option String) (e : ts = h ++ .copen :: ts') (ht : TestToks h)
      (hh : Heads b l t) (hb : s'.blocks.map Block.sig' = (b, l) :: s.blocks.map Block.sig')
      (hn : s.blocks.length ≤ lim.blocks) (hl : s'.lastType = s.lastType)
      (hk : t = .kelse ∨ t = .kelsif → s.lastType = .if_ ∨ s.lastType = .elsif)
  | cls (c : Option A) (e : t = .cclose c) (e' : ts' = ts) (b : BType) (l : Option String)
      (hb : s.blocks.map Block.sig' = (b, l) :: s'.blocks.map Block.sig') (hn : s'.blocks ≠ [])
      (hl : b ≠ .root → (s'.lastType = .if_ ∨ s'.lastType = .elsif) → isElse ts = true ∧ (b = .if_ ∨ b = .elsif))

theorem openBlock_sig {lim : Limits} {s s' : State A T E} {new : Block} (h : openBlock lim s new = some s') :
    s'.blocks.map Block.sig' = new.sig' :: s.blocks.map Block.sig' ∧ s.blocks.length ≤ lim.blocks ∧
      s'.lastType = s.lastType := by
  unfold openBlock at h
  split at h
  · cases h
  · rename_i cur stack hb
    split at h
    · injection h with h
      subst h
      refine ⟨?_, ?_, rfl⟩
      · simp [hb, Block.sig']
      · rw [hb]
        simp
        omega
    · cases h

theorem modify_sig (bs : List Block) (i : Nat) (f : Block → Block) (hf : ∀ b, (f b).sig' = b.sig') :
    (bs.modify i f).map Block.sig' = bs.map Block.sig' := by
  apply List.ext_getElem?
  intro n
  simp only [List.getElem?_map, List.getElem?_modify]
  cases bs[n]? with
  | none => simp
  | some b =>
    by_cases h : i = n <;> simp [h, hf]

theorem addBreak_sig (bs : List Block) (i pos : Nat) : (addBreak bs i pos).map Block.sig' = bs.map Block.sig' :=
  modify_sig _ _ _ (fun _ => rfl)

theorem modify_len (bs : List Block) (i : Nat) (f : Block → Block) : (bs.modify i f).length = bs.length := by simp

theorem round_shape {lim : Limits} {s s' : State A T E} {t : Tok A T E} {ts ts' : List (Tok A T E)}
    (h : round lim s t ts = some (ts', s')) : Shape lim s s' t ts ts' := by
  cases t with
  | kif =>
    simp only [round] at h
    split at h
    · rename_i h1
      obtain ⟨u, e, hu⟩ := parseTest_toks h1
      simp only [Option.map_eq_some_iff, Prod.mk.injEq] at h
      obtain ⟨a, ha, rfl, rfl⟩ := h
      obtain ⟨h2, h3, h4⟩ := openBlock_sig ha
      refine .opn u .if_ none e hu rfl ?_ ?_ h4 (by simp)
      · exact h2.trans (congrArg _ (modify_sig _ _ (fun b => { b with ifJmps := [] }) (fun _ => rfl)))
      · simpa using h3
    · cases h
  | kelsif =>
    simp only [round] at h
    split at h
    · rename_i hlt
      split at h
      · rename_i h1
        obtain ⟨u, e, hu⟩ := parseTest_toks h1
        simp only [Option.map_eq_some_iff, Prod.mk.injEq] at h
        obtain ⟨a, ha, rfl, rfl⟩ := h
        obtain ⟨h2, h3, h4⟩ := openBlock_sig ha
        exact .opn u .elsif none e hu rfl h2 h3 h4 (fun _ => hlt)
      · cases h
    · cases h
  | kelse =>
    simp only [round] at h
    split at h
    · rename_i hlt
      split at h
      · simp only [Option.map_eq_some_iff, Prod.mk.injEq] at h
        obtain ⟨a, ha, rfl, rfl⟩ := h
        obtain ⟨h2, h3, h4⟩ := openBlock_sig ha
        exact .opn [] .else_ none rfl (by simp [TestToks]) rfl h2 h3 h4 (fun _ => hlt)
      · cases h
    · cases h
  | kwhile e =>
    simp only [round] at h
    split at h
    · simp only [Option.map_eq_some_iff, Prod.mk.injEq] at h
      obtain ⟨a, ha, rfl, rfl⟩ := h
      obtain ⟨h2, h3, h4⟩ := openBlock_sig ha
      exact .opn [] .while_ none rfl (by simp [TestToks]) ⟨e, rfl⟩ h2 h3 h4 (by simp)
    · cases h
  | kfep l =>
    simp only [round] at h
    split at h
    · cases h
    · split at h
      · cases h
      · split at h
        · simp only [Option.map_eq_some_iff, Prod.mk.injEq] at h
          obtain ⟨a, ha, rfl, rfl⟩ := h
          obtain ⟨h2, h3, h4⟩ := openBlock_sig ha
          exact .opn [] .fep l rfl (by simp [TestToks]) rfl h2 h3 h4 (by simp)
        · cases h
  | kbreak l =>
    cases l with
    | none =>
      simp only [round] at h
      split at h
      · cases h
      · simp only [Option.some.injEq, Prod.mk.injEq] at h
        obtain ⟨rfl, rfl⟩ := h
        exact .plain rfl ⟨rfl, rfl⟩ (addBreak_sig _ _ _) rfl (by simp)
      · simp only [Option.some.injEq, Prod.mk.injEq] at h
        obtain ⟨rfl, rfl⟩ := h
        exact .plain rfl ⟨rfl, rfl⟩ (addBreak_sig _ _ _) rfl (by simp)
    | some l =>
      simp only [round] at h
      split at h
      · cases h
      · simp only [Option.some.injEq, Prod.mk.injEq] at h
        obtain ⟨rfl, rfl⟩ := h
        exact .plain rfl ⟨rfl, rfl⟩ (addBreak_sig _ _ _) rfl (by simp)
  | kcont =>
    simp only [round] at h
    split at h
    · cases h
    · simp only [Option.some.injEq, Prod.mk.injEq] at h
      obtain ⟨rfl, rfl⟩ := h
      exact .plain rfl ⟨rfl, rfl⟩ rfl rfl (by simp)
    · simp only [Option.some.injEq, Prod.mk.injEq] at h
      obtain ⟨rfl, rfl⟩ := h
      exact .plain rfl ⟨rfl, rfl⟩ rfl rfl (by simp)
  | cclose cl =>
    simp only [round, Option.map_eq_some_iff, Prod.mk.injEq] at h
    obtain ⟨a, ha, rfl, rfl⟩ := h
    unfold closeBlock at ha
    split at ha
    · rename_i cur prev stack hb
      refine .cls cl rfl rfl cur.btype cur.label ?_ ?_ ?_
      all_goals
        simp only at ha
        split at ha
      all_goals try
        split at ha
      all_goals
        injection ha with ha
        subst ha
      all_goals simp_all [Block.sig']
    · cases ha
  | _ =>
    simp only [round, Option.some.injEq, Prod.mk.injEq, reduceCtorEq] at h
    try
      obtain ⟨rfl, rfl⟩ := h
      exact .plain rfl ⟨rfl, rfl⟩ rfl rfl (by simp)

/-! ## The invariant -/

/-- The blocks that are open after the tokens `p`, the innermost first. -/
inductive Stack : List (Tok A T E) → List (BType × Option String) → Prop where
  | root {p l} : Matched p → Stack p [(.root, l)]
  | blk {p bs b l k h r} : Stack p bs → Heads b l k → TestToks h → Matched r →
      Stack (p ++ k :: (h ++ .copen :: r)) ((b, l) :: bs)

theorem Stack.more {p u : List (Tok A T E)} {bs} (h : Stack p bs) (hu : NoBrace u) : Stack (p ++ u) bs := by
  cases h with
  | root hm => exact .root (hm.noBrace hu)
  | blk h1 h2 h3 h4 =>
    rw [List.append_assoc, List.cons_append, List.append_assoc, List.cons_append]
    exact .blk h1 h2 h3 (h4.noBrace hu)

theorem Heads.noBrace {b l} {k : Tok A T E} (h : Heads b l k) : NoBrace [k] := by
  cases b <;> simp [Heads] at h <;> try (subst h; exact ⟨rfl, rfl⟩)
  obtain ⟨e, rfl⟩ := h
  exact ⟨rfl, rfl⟩

theorem NoBrace.append {a b : List (Tok A T E)} (h : NoBrace a) (h' : NoBrace b) : NoBrace (a ++ b) :=
  ⟨by simp [h.1, h'.1], by simp [h.2, h'.2]⟩

theorem Stack.close {p : List (Tok A T E)} {b l bs c} (h : Stack p ((b, l) :: bs)) (hn : bs ≠ []) :
    Stack (p ++ [.cclose c]) bs ∧ ∃ k, Heads b l k ∧ Ended k (p ++ [.cclose c]) := by
  cases h with
  | root hm => exact absurd rfl hn
  | @blk p0 bs b l k h r h1 h2 h3 h4 =>
    have e : p0 ++ k :: (h ++ .copen :: r) ++ [.cclose c] = p0 ++ k :: (h ++ .copen :: (r ++ [.cclose c])) := by
      simp
    rw [e]
    have hb : NoBrace (k :: h) := (h2.noBrace).append h3.noBrace
    refine ⟨?_, k, h2, p0, h, r, c, rfl, h3, h4⟩
    cases h1 with
    | root hm => exact .root (hm.block hb h4)
    | blk g1 g2 g3 g4 =>
      have := Stack.blk g1 g2 g3 (g4.block (c := c) hb h4)
      simpa using this

theorem StaysOpen.push {r : List (Tok A T E)} {b l k h r'} (hr : StaysOpen r) (h2 : Heads b l k) (h3 : TestToks h)
    (h4 : StaysOpen r') : StaysOpen (r ++ k :: (h ++ .copen :: r')) := by
  have e : r ++ k :: (h ++ .copen :: r') = (r ++ k :: h) ++ .copen :: r' := by simp
  rw [e]
  exact (hr.noBrace ((h2.noBrace).append h3.noBrace)).trans h4.cons_open

theorem Stack.inside {p : List (Tok A T E)} {bs} (h : Stack p bs) : ∀ {b l}, (b, l) ∈ bs → b ≠ .root →
    ∃ k, Heads b l k ∧ Inside' k p := by
  induction h with
  | root hm => simp +contextual
  | @blk p bs b l k h r h1 h2 h3 h4 ih =>
    intro b' l' hm hne
    rcases List.mem_cons.1 hm with hm | hm
    · injection hm with ha hb
      subst ha hb
      exact ⟨k, h2, p, h, r, rfl, h3, h4.1⟩
    · obtain ⟨k', hk, p', h', r', rfl, ht, ho⟩ := ih hm hne
      refine ⟨k', hk, p', h', r' ++ k :: (h ++ .copen :: r), by simp, ht, ho.push h2 h3 h4.1⟩

theorem Stack.depth {p : List (Tok A T E)} {bs} (h : Stack p bs) : StaysOpen p ∧
    opens p + 1 = closes p + bs.length := by
  induction h with
  | root hm => exact ⟨hm.1, by simp [hm.2]⟩
  | @blk p bs b l k h r h1 h2 h3 h4 ih =>
    refine ⟨ih.1.push h2 h3 h4.1, ?_⟩
    have e : p ++ k :: (h ++ .copen :: r) = (p ++ k :: h) ++ .copen :: r := by simp
    have hb : NoBrace (k :: h) := (h2.noBrace).append h3.noBrace
    have h5 := h4.2
    have h6 := ih.2
    rw [e]
    simp only [opens_append, closes_append, opens, closes, hb.1, hb.2, List.length_cons]
    omega

/-- What `last_block_type` remembers: the last closing brace ended an `if` or `elsif` block and was
followed by `elsif` or `else`. -/
def Last (p rest : List (Tok A T E)) (s : State A T E) : Prop :=
  (s.lastType = .if_ ∨ s.lastType = .elsif) →
    ∃ k q r, p = q ++ r ∧ (k = .kif ∨ k = .kelsif) ∧ Ended k q ∧ closes r = 0 ∧
      (r = [] ∧ isElse rest = true ∨
        ∃ e h r', (e = .kelsif ∨ e = .kelse) ∧ r = e :: (h ++ .copen :: r') ∧ TestToks h)

/-- The invariant of the main loop: `p` has been read. -/
structure Acc (lim : Limits) (p rest : List (Tok A T E)) (s : State A T E) : Prop where
  stack : Stack p (s.blocks.map Block.sig')
  bound : s.blocks.length ≤ lim.blocks + 1
  last : Last p rest s

theorem Acc.step {lim : Limits} {p : List (Tok A T E)} {s s' t ts ts'} (h : Acc lim p (t :: ts) s)
    (hr : round lim s t ts = some (ts', s')) : ∃ u, t :: ts = (t :: u) ++ ts' ∧ Acc lim (p ++ t :: u) ts' s' ∧
      (TestToks u ∨ ∃ w, u = w ++ [.copen] ∧ TestToks w) := by
  cases round_shape hr with
  | plain e nb hb hl hk =>
    subst e
    refine ⟨[], rfl, ⟨?_, ?_, ?_⟩, .inl (by simp [TestToks])⟩
    · rw [hb]
      exact h.stack.more nb
    · have := congrArg List.length hb
      simp only [List.length_map] at this
      rw [this]
      exact h.bound
    · intro hlt
      rw [hl] at hlt
      obtain ⟨k, q, r, e, hkk, he, hc, hcase⟩ := h.last hlt
      refine ⟨k, q, r ++ [t], by rw [e]; simp, hkk, he, by simp [hc, nb.2], ?_⟩
      rcases hcase with ⟨_, hel⟩ | ⟨e', h', r', hee, rfl, ht⟩
      · exfalso
        cases t <;> simp [isElse] at hel hk
      · exact .inr ⟨e', h', r' ++ [t], hee, by simp, ht⟩
  | opn hd b l e ht hh hb hn hl hk =>
    subst e
    refine ⟨hd ++ [.copen], by simp, ⟨?_, ?_, ?_⟩, .inr ⟨hd, rfl, ht⟩⟩
    · rw [hb]
      exact .blk h.stack hh ht .nil
    · have := congrArg List.length hb
      simp only [List.length_map, List.length_cons] at this
      omega
    · intro hlt
      rw [hl] at hlt
      have hbr : NoBrace (t :: hd) := (hh.noBrace).append ht.noBrace
      have hcl : closes (t :: (hd ++ [.copen])) = 0 := by
        have e : t :: (hd ++ [.copen]) = (t :: hd) ++ [.copen] := by simp
        rw [e, closes_append, hbr.2]
        rfl
      obtain ⟨k, q, r, e, hkk, he, hc, hcase⟩ := h.last hlt
      refine ⟨k, q, r ++ t :: (hd ++ [.copen]), by rw [e]; simp, hkk, he, by rw [closes_append, hc, hcl], ?_⟩
      rcases hcase with ⟨hrn, hel⟩ | ⟨e', h', r', hee, rfl, ht'⟩
      · subst hrn
        refine .inr ⟨t, hd, [], ?_, by simp, ht⟩
        cases t <;> simp [isElse] at hel <;> simp
      · exact .inr ⟨e', h', r' ++ t :: (hd ++ [.copen]), hee, by simp, ht'⟩
  | cls c e e' b l hb hn hl =>
    subst e e'
    have hst := h.stack
    rw [hb] at hst
    obtain ⟨h1, k, hk, he⟩ := hst.close (c := c) (by simpa using hn)
    refine ⟨[], rfl, ⟨h1, ?_, ?_⟩, .inl (by simp [TestToks])⟩
    · have := congrArg List.length hb
      simp only [List.length_map, List.length_cons] at this
      have := h.bound
      omega
    · intro hlt
      have hroot : b ≠ .root := by
        rintro rfl
        exact hk
      obtain ⟨h5, h6⟩ := hl hroot hlt
      refine ⟨k, p ++ [.cclose c], [], by simp, ?_, he, rfl, .inl ⟨rfl, h5⟩⟩
      rcases h6 with rfl | rfl
      · exact .inl hk
      · exact .inr hk

/-- Every token that is not part of a test and not an opening brace is read at the start of a round. -/
theorem rounds_at {lim : Limits} : ∀ (n : Nat) {ts : List (Tok A T E)} {s ops c}, rounds lim n ts s = some ops →
    Acc lim c ts s → ∀ {p t q}, ts = p ++ t :: q → ¬ TestToks [t] → t ≠ .copen →
      ∃ s1 r, Acc lim (c ++ p) (t :: q) s1 ∧ round lim s1 t q = some r
  | n, [], s, ops, c, h, ha, p, t, q, e, _, _ => by simp at e
  | 0, _ :: _, s, ops, c, h, _, _, _, _, _, _, _ => by simp [rounds] at h
  | n + 1, t0 :: ts, s, ops, c, h, ha, p, t, q, e, h1, h2 => by
    simp only [rounds] at h
    split at h
    · cases h
    · rename_i ts' s' hr
      obtain ⟨u, e', ha', hu⟩ := ha.step hr
      cases p with
      | nil =>
        simp only [List.nil_append, List.cons.injEq] at e
        obtain ⟨rfl, rfl⟩ := e
        exact ⟨s, _, by simpa using ha, hr⟩
      | cons t1 p =>
        simp only [List.cons_append, List.cons.injEq] at e
        obtain ⟨rfl, e⟩ := e
        simp only [List.cons_append, List.cons.injEq, true_and] at e'
        rw [e'] at e
        rcases append_eq_append_cons e with ⟨z, h5, h6⟩ | ⟨z, h5, h6⟩
        · cases z with
          | nil =>
            simp only [List.append_nil] at h5
            subst h5
            obtain ⟨s1, r, g1, g2⟩ := rounds_at n h ha' (p := []) (by simpa using h6.symm) h1 h2
            exact ⟨s1, r, by simpa using g1, g2⟩
          | cons t2 z =>
            exfalso
            simp only [List.cons_append, List.cons.injEq] at h6
            obtain ⟨rfl, h6⟩ := h6
            have hm : t ∈ u := by rw [h5]; simp
            rcases hu with hu | ⟨w, rfl, hw⟩
            · exact h1 (fun x hx => by simp at hx; subst hx; exact hu _ hm)
            · rcases List.mem_append.1 hm with hm | hm
              · exact h1 (fun x hx => by simp at hx; subst hx; exact hw _ hm)
              · simp at hm
                exact h2 hm
        · subst h5
          obtain ⟨s1, r, g1, g2⟩ := rounds_at n h ha' h6 h1 h2
          exact ⟨s1, r, by simpa using g1, g2⟩

theorem Acc.start (lim : Limits) (ts : List (Tok A T E)) : Acc lim [] ts ⟨[], [.new .root], .root⟩ :=
  ⟨.root .nil, by simp, fun h => by simp at h⟩

theorem compile_at {lim : Limits} {ts : List (Tok A T E)} {ops p t q} (h : compile lim ts = some ops)
    (e : ts = p ++ t :: q) (h1 : ¬ TestToks [t]) (h2 : t ≠ .copen) :
    ∃ s1 r, Acc lim p (t :: q) s1 ∧ round lim s1 t q = some r := by
  obtain ⟨s1, r, g1, g2⟩ := rounds_at _ h (Acc.start lim ts) e h1 h2
  exact ⟨s1, r, by simpa using g1, g2⟩

theorem rounds_braces {lim : Limits} : ∀ (n : Nat) {ts : List (Tok A T E)} {s ops c}, rounds lim n ts s = some ops →
    Acc lim c ts s → ∀ {p q}, ts = p ++ q → closes (c ++ p) ≤ opens (c ++ p) ∧
      opens (c ++ p) ≤ closes (c ++ p) + lim.blocks ∧ (q = [] → opens (c ++ p) = closes (c ++ p))
  | n, [], s, ops, c, h, ha, p, q, e => by
    have hd := ha.stack.depth
    have hl : s.blocks.length = 1 := by
      cases n <;> simp [rounds] at h <;> exact h.1
    simp at e
    obtain ⟨rfl, rfl⟩ := e
    have := hd.2
    simp only [List.length_map, hl] at this
    simp
    omega
  | 0, _ :: _, s, ops, c, h, _, _, _, _ => by simp [rounds] at h
  | n + 1, t0 :: ts, s, ops, c, h, ha, p, q, e => by
    simp only [rounds] at h
    split at h
    · cases h
    · rename_i ts' s' hr
      obtain ⟨u, e', ha', hu⟩ := ha.step hr
      have ih := @rounds_braces lim n ts' s' ops (c ++ t0 :: u) h ha'
      have hd := ha.stack.depth
      have hbd := ha.bound
      have hd2 := hd.2
      simp only [List.length_map] at hd2
      have hc := hd.1 c [] (by simp)
      rw [e'] at e
      cases p with
      | nil =>
        simp only [List.nil_append] at e
        refine ⟨by simpa using hc, by simp; omega, ?_⟩
        intro hq
        rw [hq] at e
        simp at e
      | cons t1 p =>
        simp only [List.cons_append, List.cons.injEq] at e
        obtain ⟨rfl, e⟩ := e
        rcases append_eq_append_cons e with ⟨z, h5, h6⟩ | ⟨z, h5, h6⟩
        · by_cases hz : z = []
          · subst hz
            simp only [List.append_nil, List.nil_append] at h5 h6
            subst h5 h6
            have := @ih [] q (by simp)
            simpa using this
          · have hq : q ≠ [] := by
              rw [h6]
              simp [hz]
            have hp : NoBrace p := by
              rcases hu with hu | ⟨w, hw, hwt⟩
              · rw [h5] at hu
                exact TestToks.noBrace (fun x hx => hu x (by simp [hx]))
              · have : ∃ w2, w = p ++ w2 := by
                  rw [hw] at h5
                  obtain ⟨z', a, rfl⟩ : ∃ z' a, z = z' ++ [a] := by
                    rcases List.eq_nil_or_concat z with h | ⟨l, a, h⟩
                    · exact absurd h hz
                    · exact ⟨l, a, by simpa using h⟩
                  rw [← List.append_assoc] at h5
                  exact ⟨z', (List.append_inj' h5 rfl).1⟩
                obtain ⟨w2, rfl⟩ := this
                exact hwt.noBrace.left
            -- the first token of a round
            have h1 : closes (c ++ [t0]) ≤ opens (c ++ [t0]) ∧ opens (c ++ [t0]) ≤ closes (c ++ [t0]) + lim.blocks := by
              have hd' := ha'.stack.depth
              have e1 : c ++ t0 :: u = (c ++ [t0]) ++ u := by simp
              have hs := hd'.1 (c ++ [t0]) u e1
              refine ⟨hs, ?_⟩
              have hb : opens [t0] = 0 := by
                cases round_shape hr with
                | plain _ nb _ _ _ => exact nb.1
                | opn _ _ _ _ _ hh _ _ _ _ => exact hh.noBrace.1
                | cls _ e _ _ _ _ _ _ => subst e; rfl
              simp only [opens_append, closes_append, hb]
              omega
            have e2 : c ++ t0 :: p = (c ++ [t0]) ++ p := by simp
            rw [e2]
            simp only [opens_append (c ++ [t0]), closes_append (c ++ [t0]), hp.1, hp.2]
            exact ⟨by omega, by omega, fun h => absurd h hq⟩
        · subst h5
          have := @ih z q h6
          simpa using this

/-! ## Properties -/

/-- Braces of an accepted script match, and are nowhere nested deeper than the limit. -/
theorem braces_match {lim : Limits} {ts : List (Tok A T E)} {ops} (h : compile lim ts = some ops) :
    Matched ts ∧ ∀ p q, ts = p ++ q → opens p ≤ closes p + lim.blocks := by
  have := @rounds_braces A T E lim ts.length ts _ ops [] h (Acc.start lim ts)
  refine ⟨⟨fun p q e => by simpa using (this e).1, by simpa using (@this ts [] (by simp)).2.2 rfl⟩, ?_⟩
  intro p q e
  simpa using (this e).2.1

theorem findLabel_label {l : String} : ∀ {bs : List Block} {k i n : Nat}, findLabel l bs k = some (i, n) →
    ∃ b ∈ bs, b.btype = .fep ∧ b.label = some l
  | [], _, _, _, h => by simp [findLabel] at h
  | b :: bs, k, i, n, h => by
    simp only [findLabel] at h
    split at h
    · rename_i hb
      split at h
      · rename_i hl
        exact ⟨b, by simp, hb, hl⟩
      · simp only [Option.map_eq_some_iff] at h
        obtain ⟨⟨i', n'⟩, h, _⟩ := h
        obtain ⟨b', hm, h1, h2⟩ := findLabel_label h
        exact ⟨b', by simp [hm], h1, h2⟩
    · simp only [Option.map_eq_some_iff] at h
      obtain ⟨⟨i', n'⟩, h, _⟩ := h
      obtain ⟨b', hm, h1, h2⟩ := findLabel_label h
      exact ⟨b', by simp [hm], h1, h2⟩

theorem findLoop_some : ∀ {bs : List Block} {r}, findLoop bs = some r → ∃ b ∈ bs, b.btype = .while_ ∨ b.btype = .fep
  | [], _, h => by simp [findLoop] at h
  | b :: bs, r, h => by
    simp only [findLoop] at h
    split at h
    · rename_i hb
      simp only [Block.isLoop, Bool.or_eq_true, decide_eq_true_eq] at hb
      exact ⟨b, by simp, hb⟩
    · simp only [Option.map_eq_some_iff] at h
      obtain ⟨⟨i', n'⟩, h, _⟩ := h
      obtain ⟨b', hm, h1⟩ := findLoop_some h
      exact ⟨b', by simp [hm], h1⟩

theorem contJump_while : ∀ {bs : List Block} {found r}, contJump bs found = some r → found = 0 →
    ∃ b ∈ bs, b.btype = .while_
  | [], found, r, h, h0 => by simp [contJump, h0] at h
  | b :: bs, found, r, h, h0 => by
    simp only [contJump] at h
    split at h
    · rename_i hb
      exact ⟨b, by simp, hb⟩
    · rw [if_neg (by omega)] at h
      obtain ⟨b', hm, h1⟩ := contJump_while h h0
      exact ⟨b', by simp [hm], h1⟩

theorem Acc.within {lim : Limits} {p rest : List (Tok A T E)} {s} (h : Acc lim p rest s) {b : Block}
    (hb : b ∈ s.blocks) (hr : b.btype ≠ .root) : ∃ k, Heads b.btype b.label k ∧ Inside' k p :=
  h.stack.inside (List.mem_map.2 ⟨b, hb, rfl⟩) hr

/-- `break` stands in a loop. -/
theorem break_in_loop {lim : Limits} {ts p q : List (Tok A T E)} {ops} (h : compile lim ts = some ops)
    (e : ts = p ++ .kbreak none :: q) : ∃ k, ((∃ c, k = .kwhile c) ∨ ∃ l, k = .kfep l) ∧ Inside' k p := by
  obtain ⟨s, r, ha, hr⟩ := compile_at h e (by simp [TestToks]) (by simp)
  have : ∃ x, findLoop s.blocks = some x := by
    simp only [round] at hr
    split at hr
    · cases hr
    · exact ⟨_, by assumption⟩
    · exact ⟨_, by assumption⟩
  obtain ⟨x, hx⟩ := this
  obtain ⟨b, hb, hk⟩ := findLoop_some hx
  obtain ⟨k, h1, h2⟩ := ha.within hb (by rcases hk with hk | hk <;> simp [hk])
  refine ⟨k, ?_, h2⟩
  rcases hk with hk | hk
  · rw [hk] at h1
    exact .inl h1
  · rw [hk] at h1
    exact .inr ⟨_, h1⟩

/-- `break :name "l"` stands in a `foreverypart :name "l"`. -/
theorem break_in_named {lim : Limits} {ts p q : List (Tok A T E)} {ops l} (h : compile lim ts = some ops)
    (e : ts = p ++ .kbreak (some l) :: q) : Inside' (.kfep (some l)) p := by
  obtain ⟨s, r, ha, hr⟩ := compile_at h e (by simp [TestToks]) (by simp)
  have : ∃ x, findLabel l s.blocks 0 = some x := by
    simp only [round] at hr
    split at hr
    · cases hr
    · exact ⟨_, by assumption⟩
  obtain ⟨⟨i, n⟩, hx⟩ := this
  obtain ⟨b, hb, hk, hl⟩ := findLabel_label hx
  obtain ⟨k, h1, h2⟩ := ha.within hb (by simp [hk])
  rw [hk, hl] at h1
  have : k = .kfep (some l) := h1
  rwa [this] at h2

/-- `continue` stands in a `while`. -/
theorem continue_in_while {lim : Limits} {ts p q : List (Tok A T E)} {ops} (h : compile lim ts = some ops)
    (e : ts = p ++ .kcont :: q) : ∃ c, Inside' (.kwhile c) p := by
  obtain ⟨s, r, ha, hr⟩ := compile_at h e (by simp [TestToks]) (by simp)
  have : ∃ x, contJump s.blocks 0 = some x := by
    simp only [round] at hr
    split at hr
    · cases hr
    · exact ⟨_, by assumption⟩
    · exact ⟨_, by assumption⟩
  obtain ⟨x, hx⟩ := this
  obtain ⟨b, hb, hk⟩ := contJump_while hx rfl
  obtain ⟨k, h1, h2⟩ := ha.within hb (by simp [hk])
  rw [hk] at h1
  obtain ⟨c, rfl⟩ := h1
  exact ⟨c, h2⟩

/-- **`elsif` and `else` belong to an `if`.**  Full claim: in an accepted script, `elsif` or `else`
directly follows the closing brace of an `if` or `elsif` block, i.e. `Ended k p` with `k` one of the
two.  What is proved: `p` is such a text followed by an `r` without closing braces that is empty or
starts an `elsif` or `else` block.  Missing: `r = []`, which fails, see `stray_else`. -/
theorem else_after_if_partial {lim : Limits} {ts p q : List (Tok A T E)} {ops t} (h : compile lim ts = some ops)
    (e : ts = p ++ t :: q) (ht : t = .kelsif ∨ t = .kelse) :
    ∃ k p' r, (k = .kif ∨ k = .kelsif) ∧ p = p' ++ r ∧ Ended k p' ∧ closes r = 0 ∧
      (r = [] ∨ ∃ t' h r', (t' = .kelsif ∨ t' = .kelse) ∧ r = t' :: (h ++ .copen :: r') ∧ TestToks h) := by
  obtain ⟨s, r, ha, hr⟩ := compile_at h e (by rcases ht with rfl | rfl <;> simp [TestToks])
    (by rcases ht with rfl | rfl <;> simp)
  have hl : s.lastType = .if_ ∨ s.lastType = .elsif := by
    obtain ⟨ts', s'⟩ := r
    cases round_shape hr with
    | plain _ _ _ _ hk => rcases ht with rfl | rfl <;> simp at hk
    | opn _ _ _ _ _ _ _ _ _ hk => exact hk (by tauto)
    | cls c e _ _ _ _ _ _ => subst e; simp at ht
  obtain ⟨k, p', r, h1, h2, h3, h4, h5⟩ := ha.last hl
  refine ⟨k, p', r, h2, h1, h3, h4, ?_⟩
  rcases h5 with ⟨h5, _⟩ | ⟨e, h, r', h6, h7, h8⟩
  · exact .inl h5
  · exact .inr ⟨e, h, r', h6, h7, h8⟩

/-- Outside of any block, `elsif` and `else` directly follow the closing brace of an `if` or `elsif`
block. -/
theorem else_after_if_outside {lim : Limits} {ts p q : List (Tok A T E)} {ops t} (h : compile lim ts = some ops)
    (e : ts = p ++ t :: q) (ht : t = .kelsif ∨ t = .kelse) (ho : opens p = closes p) :
    ∃ k, (k = .kif ∨ k = .kelsif) ∧ Ended k p := by
  obtain ⟨k, p', r, h1, rfl, h3, h4, h5⟩ := else_after_if_partial h e ht
  rcases h5 with rfl | ⟨t', h', r', h6, rfl, h8⟩
  · exact ⟨k, h1, by simpa using h3⟩
  · exfalso
    have hm := (braces_match h).1.1 p' _ (by rw [e, List.append_assoc])
    have e1 : t' :: (h' ++ .copen :: r') = [t'] ++ (h' ++ .copen :: r') := rfl
    rw [e1] at ho h4
    simp only [opens_append, closes_append, opens, closes] at ho h4
    omega

/-! ### Cases and disagreements -/

/-- The limits of `Compiler::new`, `src/compiler/mod.rs`. -/
def stdLimits : Limits := ⟨15, 15, 3⟩

private abbrev Tk := Tok Nat Nat Nat

theorem parse_true (m : Nat) (ts : List Tk) (ops) : parseTest m (.ktrue :: ts) ops = some (ts, ops ++ [.tru, .jz maxPos]) := by
  simp [parseTest, parseLoop, atom, expectClose]

theorem parse_false (m : Nat) (ts : List Tk) (ops) : parseTest m (.kfalse :: ts) ops = some (ts, ops ++ [.fls, .jz maxPos]) := by
  simp [parseTest, parseLoop, atom, expectClose]

/-- A script that the theorems above speak of. -/
example : ∃ ops, compile stdLimits
    ([.kif, .ktrue, .copen, .act [1], .cclose none, .kelse, .copen, .kwhile 5, .copen, .kbreak none, .kcont, .cclose none,
      .kfep (some "a"), .copen, .kbreak (some "a"), .cclose none, .cclose none] : List Tk) = some ops := by
  simp [compile, rounds, round, parse_true, parse_false, openBlock, closeBlock, Block.new, stdLimits, isElse, findLoop,
    Block.isLoop, findLabel, contJump, addBreak, fepCount, patchStart, patchJmp, setJmp]

/-- Scripts that are rejected. -/
example : compile stdLimits ([.kelse, .copen, .cclose none] : List Tk) = none := by
  simp [compile, rounds, round, parse_true, parse_false, openBlock, closeBlock, Block.new, stdLimits, isElse, findLoop,
    Block.isLoop, findLabel, contJump, addBreak, fepCount, patchStart, patchJmp, setJmp]
example : compile stdLimits ([.kif, .ktrue, .copen] : List Tk) = none := by
  simp [compile, rounds, round, parse_true, parse_false, openBlock, closeBlock, Block.new, stdLimits, isElse, findLoop,
    Block.isLoop, findLabel, contJump, addBreak, fepCount, patchStart, patchJmp, setJmp]
example : compile stdLimits ([.kif, .ktrue, .copen, .kbreak none, .cclose none] : List Tk) = none := by
  simp [compile, rounds, round, parse_true, parse_false, openBlock, closeBlock, Block.new, stdLimits, isElse, findLoop,
    Block.isLoop, findLabel, contJump, addBreak, fepCount, patchStart, patchJmp, setJmp]
example : compile ⟨1, 15, 3⟩ ([.kif, .ktrue, .copen, .kif, .ktrue, .copen, .cclose none, .cclose none] : List Tk) = none := by
  simp [compile, rounds, round, parse_true, parse_false, openBlock, closeBlock, Block.new, stdLimits, isElse, findLoop,
    Block.isLoop, findLabel, contJump, addBreak, fepCount, patchStart, patchJmp, setJmp]

/-- Disagreement: `if … { } elsif … { keep; else { … } }` is accepted, although the `else` follows no
`if`; its block is then always executed.  `last_block_type` is not reset when a block is opened
(`instruction.rs:628-642`). -/
theorem stray_else : compile stdLimits
    ([.kif, .kfalse, .copen, .cclose none, .kelsif, .ktrue, .copen, .act [1], .kelse, .copen, .act [2], .cclose none,
      .cclose none] : List Tk) =
    some [.fls, .jz 3, .jmp 7, .tru, .jz 7, .plain 1, .plain 2] := by
  simp [compile, rounds, round, parse_true, parse_false, openBlock, closeBlock, Block.new, stdLimits, isElse, findLoop,
    Block.isLoop, findLabel, contJump, addBreak, fepCount, patchStart, patchJmp, setJmp]

/-- Disagreement: the limit on nested `foreverypart` loops is no limit.  It compares the number of
loops around the current block with the maximum by `==` (`instruction.rs:234-244`), and the current
block is not counted: `maximum + 1` loops are accepted, and after an `if` in the innermost one any
number.  Here are six, with a maximum of three. -/
theorem parts_limit_evaded : ∃ ops, compile stdLimits
    ([.kfep none, .copen, .kfep none, .copen, .kfep none, .copen, .kfep none, .copen, .kif, .ktrue, .copen,
      .kfep none, .copen, .kfep none, .copen,
      .cclose none, .cclose none, .cclose none, .cclose none, .cclose none, .cclose none, .cclose none] : List Tk) = some ops := by
  simp [compile, rounds, round, parse_true, parse_false, openBlock, closeBlock, Block.new, stdLimits, isElse, findLoop,
    Block.isLoop, findLabel, contJump, addBreak, fepCount, patchStart, patchJmp, setJmp]

/-- Disagreement: the name of a `foreverypart` may be used again in a `foreverypart` directly inside it
(an error, `LabelAlreadyDefined`, otherwise); the check skips the current block (`instruction.rs:251-257`). -/
theorem name_reused : ∃ ops, compile stdLimits
    ([.kfep (some "a"), .copen, .kfep (some "a"), .copen, .cclose none, .cclose none] : List Tk) = some ops := by
  simp [compile, rounds, round, parse_true, parse_false, openBlock, closeBlock, Block.new, stdLimits, isElse, findLoop,
    Block.isLoop, findLabel, contJump, addBreak, fepCount, patchStart, patchJmp, setJmp]

end Sieve.Compile
