import Verif.TestCompile

/-!
# What the compiler emits for structured scripts

Scripts as trees, their token sequences, and the code a textbook compiler would emit for them (jump
targets computed from lengths: no lists of pending jumps, no patching, no block stack).
`compile_render` shows that the compiler emits exactly that code for every script within its limits.
-/

namespace Sieve.Compile

mutual
/-- Commands. -/
inductive Stmt (A T E : Type) where
  /-- a command that pushes these instructions -/
  | act (is : List A)
  | eval (e : E)
  | vac (t : T) (a : A)
  | cond (c : Chain A T E)
  | loop (e : E) (b : Blk A T E) (cl : Option A)
  | parts (label : Option String) (b : Blk A T E) (cl : Option A)
  | brk (label : Option String)
  | cont
  | ret
/-- Lists of commands. -/
inductive Blk (A T E : Type) where
  | nil
  | cons (s : Stmt A T E) (b : Blk A T E)
/-- `if … elsif … else …`.  With each block goes the `Clear` emitted at its end, if any. -/
inductive Chain (A T E : Type) where
  | one (t : TestE A T E) (b : Blk A T E) (cl : Option A)
  | els (t : TestE A T E) (b : Blk A T E) (cl : Option A) (e : Blk A T E) (cl' : Option A)
  | elif (t : TestE A T E) (b : Blk A T E) (cl : Option A) (c : Chain A T E)
end

variable {A T E : Type}

/-! ## Source text -/

mutual
def Stmt.toks : Stmt A T E → List (Tok A T E)
  | .act is => [.act is]
  | .eval e => [.keval e]
  | .vac t a => [.vac t a]
  | .cond c => c.toks true
  | .loop e b cl => .kwhile e :: .copen :: (b.toks ++ [.cclose cl])
  | .parts l b cl => .kfep l :: .copen :: (b.toks ++ [.cclose cl])
  | .brk l => [.kbreak l]
  | .cont => [.kcont]
  | .ret => [.kret]
def Blk.toks : Blk A T E → List (Tok A T E)
  | .nil => []
  | .cons s b => s.toks ++ b.toks
def Chain.toks (first : Bool) : Chain A T E → List (Tok A T E)
  | .one t b cl => (if first then .kif else .kelsif) :: (t.toks ++ .copen :: (b.toks ++ [.cclose cl]))
  | .els t b cl e cl' => (if first then .kif else .kelsif) ::
      (t.toks ++ .copen :: (b.toks ++ .cclose cl :: .kelse :: .copen :: (e.toks ++ [.cclose cl'])))
  | .elif t b cl c => (if first then .kif else .kelsif) ::
      (t.toks ++ .copen :: (b.toks ++ .cclose cl :: c.toks false))
end

/-! ## Enclosing blocks -/

inductive Kind where
  | plain | loop | parts
deriving DecidableEq, Repr

/-- An enclosing block: kind, label, position of the loop instruction, target of `break`. -/
structure Encl where
  kind : Kind
  label : Option String
  start : Nat
  stop : Nat

abbrev Sig := Kind × Option String

def Encl.sig (e : Encl) : Sig := (e.kind, e.label)

/-- The innermost loop: its index and whether it is a `foreverypart`. -/
def innermost : List Sig → Option (Nat × Bool)
  | [] => none
  | (.plain, _) :: ks => (innermost ks).map fun (i, f) => (i + 1, f)
  | (.loop, _) :: _ => some (0, false)
  | (.parts, _) :: _ => some (0, true)

/-- Number of `foreverypart` blocks. -/
def partsCount : List Sig → Nat
  | [] => 0
  | (.parts, _) :: ks => partsCount ks + 1
  | _ :: ks => partsCount ks

/-- The innermost `foreverypart` loop with that label: its index. -/
def labelled (l : String) : List Sig → Option Nat
  | [] => none
  | (k, n) :: ks => if k = .parts ∧ n = some l then some 0 else (labelled l ks).map (· + 1)

/-- The innermost `while` loop: its index. -/
def innerWhile : List Sig → Option Nat
  | [] => none
  | (k, _) :: ks => if k = .loop then some 0 else (innerWhile ks).map (· + 1)

/-! ## Code -/

def clearCode (cl : Option A) : List (Op A T E) := cl.toList.map .plain

def clearLen (cl : Option A) : Nat := cl.toList.length

/-- `break` out of the `i`th enclosing block. -/
def jumpOut (ctx : List Encl) (i : Nat) : List (Op A T E) :=
  match ctx[i]? with
  | some e => [.jmp e.stop]
  | none => []

mutual
/-- Number of instructions, depending on the enclosing blocks. -/
def Stmt.len (ks : List Sig) : Stmt A T E → Nat
  | .act is => is.length
  | .eval _ => 1
  | .vac _ _ => 3
  | .cond c => c.len ks
  | .loop _ b cl => 1 + b.len ((.loop, none) :: ks) + clearLen cl + 1
  | .parts l b cl => 2 + b.len ((.parts, l) :: ks) + clearLen cl + 1
  | .brk none =>
    match innermost ks with
    | some (_, true) => 2
    | some (_, false) => 1
    | none => 0
  | .brk (some l) =>
    match labelled l ks with
    | some _ => 2
    | none => 0
  | .cont =>
    match innerWhile ks with
    | some _ => 1
    | none => 0
  | .ret => if partsCount ks = 0 then 1 else 2
def Blk.len (ks : List Sig) : Blk A T E → Nat
  | .nil => 0
  | .cons s b => s.len ks + b.len ks
def Chain.len (ks : List Sig) : Chain A T E → Nat
  | .one t b cl => t.len + 1 + b.len ((.plain, none) :: ks) + clearLen cl
  | .els t b cl e cl' => t.len + 1 + b.len ((.plain, none) :: ks) + clearLen cl + 1
      + e.len ((.plain, none) :: ks) + clearLen cl'
  | .elif t b cl c => t.len + 1 + b.len ((.plain, none) :: ks) + clearLen cl + 1 + c.len ks
end

/-- An enclosing block that is not a loop. -/
def plainEncl : Encl := ⟨.plain, none, 0, maxPos⟩

mutual
/-- The code of a command at position `n`. -/
def Stmt.code (ctx : List Encl) (n : Nat) : Stmt A T E → List (Op A T E)
  | .act is => is.map .plain
  | .eval e => [.eval e false]
  | .vac t a => [.test t false, .jz (n + 3), .plain a]
  | .cond c => c.code ctx n (n + c.len (ctx.map Encl.sig))
  | .loop e b cl =>
    let stop := n + (1 + b.len ((.loop, none) :: ctx.map Encl.sig) + clearLen cl + 1)
    .loop e stop :: (b.code (⟨.loop, none, n, stop⟩ :: ctx) (n + 1) ++ clearCode cl ++ [.jmp n])
  | .parts l b cl =>
    let stop := n + (2 + b.len ((.parts, l) :: ctx.map Encl.sig) + clearLen cl + 1)
    .fepPush :: .fep stop ::
      (b.code (⟨.parts, l, n + 1, stop⟩ :: ctx) (n + 2) ++ clearCode cl ++ [.jmp (n + 1)])
  | .brk none =>
    match innermost (ctx.map Encl.sig) with
    | some (i, true) => .fepPop 1 :: jumpOut ctx i
    | some (i, false) => jumpOut ctx i
    | none => []
  | .brk (some l) =>
    match labelled l (ctx.map Encl.sig) with
    | some i => .fepPop (partsCount ((ctx.map Encl.sig).take (i + 1))) :: jumpOut ctx i
    | none => []
  | .cont =>
    match (innerWhile (ctx.map Encl.sig)).bind (ctx[·]?) with
    | some e => [.jmp e.start]
    | none => []
  | .ret => (if partsCount (ctx.map Encl.sig) = 0 then [] else [.fepPop (partsCount (ctx.map Encl.sig))]) ++ [.ret]
def Blk.code (ctx : List Encl) (n : Nat) : Blk A T E → List (Op A T E)
  | .nil => []
  | .cons s b => s.code ctx n ++ b.code ctx (n + s.len (ctx.map Encl.sig))
/-- `fin` is the position after the whole chain. -/
def Chain.code (ctx : List Encl) (n fin : Nat) : Chain A T E → List (Op A T E)
  | .one t b cl =>
    let n' := n + t.len + 1
    t.code false n ++ .jz (n' + b.len ((.plain, none) :: ctx.map Encl.sig) + clearLen cl) ::
      (b.code (plainEncl :: ctx) n' ++ clearCode cl)
  | .els t b cl e cl' =>
    let n' := n + t.len + 1
    let next := n' + b.len ((.plain, none) :: ctx.map Encl.sig) + clearLen cl + 1
    t.code false n ++ .jz next :: (b.code (plainEncl :: ctx) n' ++ clearCode cl ++
      .jmp fin :: (e.code (plainEncl :: ctx) next ++ clearCode cl'))
  | .elif t b cl c =>
    let n' := n + t.len + 1
    let next := n' + b.len ((.plain, none) :: ctx.map Encl.sig) + clearLen cl + 1
    t.code false n ++ .jz next :: (b.code (plainEncl :: ctx) n' ++ clearCode cl ++
      .jmp fin :: c.code ctx next fin)
end

/-! ## Limits -/

mutual
/-- The script respects the compiler's limits and rules; `ks` are the enclosing blocks. -/
def Stmt.Ok (lim : Limits) (ks : List Sig) : Stmt A T E → Prop
  | .act _ | .eval _ | .vac _ _ | .ret => True
  | .cond c => c.Ok lim ks
  | .loop _ b _ => ks.length < lim.blocks ∧ b.Ok lim ((.loop, none) :: ks)
  | .parts l b _ => ks.length < lim.blocks ∧ partsCount ks.tail ≠ lim.feps ∧
      (l.isSome → l ∉ ks.tail.map Prod.snd) ∧ b.Ok lim ((.parts, l) :: ks)
  | .brk none => (innermost ks).isSome
  | .brk (some l) => (labelled l ks).isSome
  /- the block around the innermost `while` must not be a `while` itself -/
  | .cont => ∃ i, innerWhile ks = some i ∧ ∀ l, ks[i + 1]? ≠ some (.loop, l)
def Blk.Ok (lim : Limits) (ks : List Sig) : Blk A T E → Prop
  | .nil => True
  | .cons s b => s.Ok lim ks ∧ b.Ok lim ks
def Chain.Ok (lim : Limits) (ks : List Sig) : Chain A T E → Prop
  | .one t b _ => t.depth ≤ lim.tests ∧ ks.length < lim.blocks ∧ b.Ok lim ((.plain, none) :: ks)
  | .els t b _ e _ => t.depth ≤ lim.tests ∧ ks.length < lim.blocks ∧ b.Ok lim ((.plain, none) :: ks) ∧
      e.Ok lim ((.plain, none) :: ks)
  | .elif t b _ c => t.depth ≤ lim.tests ∧ ks.length < lim.blocks ∧ b.Ok lim ((.plain, none) :: ks) ∧
      c.Ok lim ks
end

/-! ## Lengths -/

theorem labelled_lt {l : String} : ∀ {ks : List Sig} {i}, labelled l ks = some i → i < ks.length
  | [], _, h => by simp [labelled] at h
  | (k, n) :: ks, i, h => by
    simp only [labelled] at h
    split at h
    · simp at h
      subst h
      simp
    · simp at h
      obtain ⟨j, h1, rfl⟩ := h
      have := labelled_lt h1
      simp
      omega

theorem innermost_lt : ∀ {ks : List Sig} {i f}, innermost ks = some (i, f) → i < ks.length
  | [], _, _, h => by simp [innermost] at h
  | (.plain, n) :: ks, i, f, h => by
    simp [innermost] at h
    obtain ⟨j, h1, rfl⟩ := h
    have := innermost_lt h1
    simp
    omega
  | (.loop, n) :: ks, i, f, h => by
    simp [innermost] at h
    simp [← h.1]
  | (.parts, n) :: ks, i, f, h => by
    simp [innermost] at h
    simp [← h.1]

theorem innerWhile_lt : ∀ {ks : List Sig} {i}, innerWhile ks = some i → i < ks.length
  | [], _, h => by simp [innerWhile] at h
  | (k, n) :: ks, i, h => by
    simp only [innerWhile] at h
    split at h
    · simp at h
      subst h
      simp
    · simp at h
      obtain ⟨j, h1, rfl⟩ := h
      have := innerWhile_lt h1
      simp
      omega

theorem jumpOut_length {ctx : List Encl} {i} (h : i < ctx.length) : (jumpOut ctx i : List (Op A T E)).length = 1 := by
  simp [jumpOut, h]

theorem clearCode_length (cl : Option A) : (clearCode cl : List (Op A T E)).length = clearLen cl := by
  simp [clearCode, clearLen]

mutual
theorem Stmt.code_length (ctx : List Encl) (n : Nat) : ∀ s : Stmt A T E,
    (s.code ctx n).length = s.len (ctx.map Encl.sig)
  | .act is => by simp [Stmt.code, Stmt.len]
  | .eval _ => by simp [Stmt.code, Stmt.len]
  | .vac _ _ => by simp [Stmt.code, Stmt.len]
  | .cond c => by rw [Stmt.code, Stmt.len, Chain.code_length]
  | .loop e b cl => by
    simp only [Stmt.code, Stmt.len, List.length_cons, List.length_append, clearCode_length, Blk.code_length,
      List.map_cons, List.length_nil, Encl.sig]
    omega
  | .parts l b cl => by
    simp only [Stmt.code, Stmt.len, List.length_cons, List.length_append, clearCode_length, Blk.code_length,
      List.map_cons, List.length_nil, Encl.sig]
    omega
  | .brk none => by
    simp only [Stmt.code, Stmt.len]
    split
    · rename_i i h
      have := innermost_lt h
      simp [jumpOut_length (ctx := ctx) (by simpa using this)]
    · rename_i i h
      have := innermost_lt h
      simp [jumpOut_length (ctx := ctx) (by simpa using this)]
    · rfl
  | .brk (some l) => by
    simp only [Stmt.code, Stmt.len]
    split
    · rename_i i h
      have := labelled_lt h
      simp [jumpOut_length (ctx := ctx) (by simpa using this)]
    · rfl
  | .cont => by
    simp only [Stmt.code, Stmt.len]
    cases h : innerWhile (ctx.map Encl.sig) with
    | none => rfl
    | some i =>
      have := innerWhile_lt h
      simp at this
      simp [this]
  | .ret => by
    simp only [Stmt.code, Stmt.len]
    split <;> rfl
theorem Blk.code_length (ctx : List Encl) (n : Nat) : ∀ b : Blk A T E,
    (b.code ctx n).length = b.len (ctx.map Encl.sig)
  | .nil => rfl
  | .cons s b => by rw [Blk.code, Blk.len, List.length_append, Stmt.code_length, Blk.code_length]
theorem Chain.code_length (ctx : List Encl) (n fin : Nat) : ∀ c : Chain A T E,
    (c.code ctx n fin).length = c.len (ctx.map Encl.sig)
  | .one t b cl => by
    simp only [Chain.code, Chain.len, List.length_cons, List.length_append, clearCode_length, Blk.code_length,
      List.map_cons, TestE.code_length, Encl.sig, plainEncl]
    omega
  | .els t b cl e cl' => by
    simp only [Chain.code, Chain.len, List.length_cons, List.length_append, clearCode_length, Blk.code_length,
      List.map_cons, TestE.code_length, Encl.sig, plainEncl]
    omega
  | .elif t b cl c => by
    simp only [Chain.code, Chain.len, List.length_cons, List.length_append, clearCode_length, Blk.code_length,
      List.map_cons, TestE.code_length, Encl.sig, plainEncl, Chain.code_length]
    omega
end

/-! ## Resolving jumps -/

theorem setJmp_at (pre post : List (Op A T E)) (t v : Nat) {p} (hp : p = pre.length) :
    setJmp v (pre ++ .jmp t :: post) p = pre ++ .jmp v :: post := by
  subst hp
  simp [setJmp]

theorem patchJmp_nil (ops : List (Op A T E)) (v) : patchJmp ops [] v = ops := rfl

theorem patchJmp_cons (ops : List (Op A T E)) (p ps v) :
    patchJmp ops (p :: ps) v = patchJmp (setJmp v ops p) ps v := rfl

theorem patchJmp_append (ops : List (Op A T E)) (ps qs v) :
    patchJmp ops (ps ++ qs) v = patchJmp (patchJmp ops ps v) qs v := by
  simp [patchJmp]

def setStop (ctx : List Encl) (i v : Nat) : List Encl := ctx.modify i fun e => { e with stop := v }

theorem setStop_sig (ctx : List Encl) (i v : Nat) : (setStop ctx i v).map Encl.sig = ctx.map Encl.sig := by
  apply List.ext_getElem?
  intro k
  simp only [setStop, List.getElem?_map, List.getElem?_modify]
  split <;> cases ctx[k]? <;> rfl

theorem setStop_cons (e : Encl) (ctx : List Encl) (i v : Nat) :
    setStop (e :: ctx) (i + 1) v = e :: setStop ctx i v := rfl

mutual
/-- Positions of the jumps that leave the `i`th enclosing block by `break`. -/
def Stmt.brks (i : Nat) (ks : List Sig) (n : Nat) : Stmt A T E → List Nat
  | .cond c => c.brks i ks n
  | .loop _ b _ => b.brks (i + 1) ((.loop, none) :: ks) (n + 1)
  | .parts l b _ => b.brks (i + 1) ((.parts, l) :: ks) (n + 2)
  | .brk none =>
    match innermost ks with
    | some (j, true) => if j = i then [n + 1] else []
    | some (j, false) => if j = i then [n] else []
    | none => []
  | .brk (some l) =>
    match labelled l ks with
    | some j => if j = i then [n + 1] else []
    | none => []
  | _ => []
def Blk.brks (i : Nat) (ks : List Sig) (n : Nat) : Blk A T E → List Nat
  | .nil => []
  | .cons s b => s.brks i ks n ++ b.brks i ks (n + s.len ks)
def Chain.brks (i : Nat) (ks : List Sig) (n : Nat) : Chain A T E → List Nat
  | .one t b _ => b.brks (i + 1) ((.plain, none) :: ks) (n + t.len + 1)
  | .els t b cl e _ => b.brks (i + 1) ((.plain, none) :: ks) (n + t.len + 1) ++
      e.brks (i + 1) ((.plain, none) :: ks)
        (n + t.len + 1 + b.len ((.plain, none) :: ks) + clearLen cl + 1)
  | .elif t b cl c => b.brks (i + 1) ((.plain, none) :: ks) (n + t.len + 1) ++
      c.brks i ks (n + t.len + 1 + b.len ((.plain, none) :: ks) + clearLen cl + 1)
end

theorem patch_jumpOut (ctx : List Encl) (i j v n : Nat) (pre post : List (Op A T E)) (hn : n = pre.length)
    (hj : j < ctx.length) :
    patchJmp (pre ++ jumpOut ctx j ++ post) (if j = i then [n] else []) v =
      pre ++ jumpOut (setStop ctx i v) j ++ post := by
  subst hn
  by_cases h : j = i
  · subst h
    rw [if_pos rfl]
    have he : ctx[j]? = some ctx[j] := List.getElem?_eq_getElem hj
    have h2 : (setStop ctx j v)[j]? = some { ctx[j] with stop := v } := by simp [setStop, he]
    simp only [jumpOut, he, h2]
    rw [patchJmp_cons, List.append_assoc, List.singleton_append, setJmp_at _ _ _ _ rfl]
    simp [patchJmp]
  · rw [if_neg h]
    have h2 : (setStop ctx i v)[j]? = ctx[j]? := by
      rw [setStop, List.getElem?_modify]
      simp [Ne.symm h]
    simp only [jumpOut, h2, patchJmp_nil]

mutual
/-- Resolving the `break`s of the `i`th enclosing block. -/
theorem Stmt.patch (v : Nat) : ∀ (s : Stmt A T E) (i : Nat) (ctx : List Encl) (pre post : List (Op A T E)) (n : Nat),
    n = pre.length →
    patchJmp (pre ++ s.code ctx n ++ post) (s.brks i (ctx.map Encl.sig) n) v
      = pre ++ s.code (setStop ctx i v) n ++ post
  | .act is, i, ctx, pre, post, n, hn => by simp [Stmt.code, Stmt.brks, patchJmp]
  | .eval e, i, ctx, pre, post, n, hn => by simp [Stmt.code, Stmt.brks, patchJmp]
  | .vac t a, i, ctx, pre, post, n, hn => by simp [Stmt.code, Stmt.brks, patchJmp]
  | .cond c, i, ctx, pre, post, n, hn => by
    rw [Stmt.code, Stmt.code, Stmt.brks, setStop_sig]
    exact Chain.patch v c i ctx pre post n _ hn
  | .loop e b cl, i, ctx, pre, post, n, hn => by
    simp only [Stmt.code, Stmt.brks, setStop_sig]
    generalize n + (1 + b.len ((Kind.loop, none) :: ctx.map Encl.sig) + clearLen cl + 1) = stop
    have := Blk.patch v b (i + 1) (⟨.loop, none, n, stop⟩ :: ctx) (pre ++ [.loop e stop])
      (clearCode cl ++ [.jmp n] ++ post) (n + 1) (by simp [hn])
    simp only [List.map_cons, Encl.sig, setStop_cons, List.append_assoc, List.cons_append, List.nil_append] at this ⊢
    exact this
  | .parts l b cl, i, ctx, pre, post, n, hn => by
    simp only [Stmt.code, Stmt.brks, setStop_sig]
    generalize n + (2 + b.len ((Kind.parts, l) :: ctx.map Encl.sig) + clearLen cl + 1) = stop
    have := Blk.patch v b (i + 1) (⟨.parts, l, n + 1, stop⟩ :: ctx) (pre ++ [.fepPush, .fep stop])
      (clearCode cl ++ [.jmp (n + 1)] ++ post) (n + 2) (by simp [hn])
    simp only [List.map_cons, Encl.sig, setStop_cons, List.append_assoc, List.cons_append, List.nil_append] at this ⊢
    exact this
  | .brk none, i, ctx, pre, post, n, hn => by
    simp only [Stmt.code, Stmt.brks, setStop_sig]
    cases h : innermost (ctx.map Encl.sig) with
    | none => simp [patchJmp]
    | some x =>
      obtain ⟨j, f⟩ := x
      have hj : j < ctx.length := by simpa using innermost_lt h
      cases f with
      | true =>
        have := patch_jumpOut ctx i j v (n + 1) (pre ++ [.fepPop 1]) post (by simp [hn]) hj
        simpa using this
      | false => exact patch_jumpOut ctx i j v n pre post hn hj
  | .brk (some l), i, ctx, pre, post, n, hn => by
    simp only [Stmt.code, Stmt.brks, setStop_sig]
    cases h : labelled l (ctx.map Encl.sig) with
    | none => simp [patchJmp]
    | some j =>
      have hj : j < ctx.length := by simpa using labelled_lt h
      have := patch_jumpOut ctx i j v (n + 1) (pre ++ [.fepPop (partsCount ((ctx.map Encl.sig).take (j + 1)))]) post
        (by simp [hn]) hj
      simpa using this
  | .cont, i, ctx, pre, post, n, hn => by
    simp only [Stmt.code, Stmt.brks, setStop_sig, patchJmp_nil]
    cases h : innerWhile (ctx.map Encl.sig) with
    | none => rfl
    | some j =>
      simp only [Option.bind_some, setStop, List.getElem?_modify]
      cases ctx[j]? with
      | none => rfl
      | some e =>
        simp
        split <;> rfl
  | .ret, i, ctx, pre, post, n, hn => by simp [Stmt.code, Stmt.brks, patchJmp, setStop_sig]
theorem Blk.patch (v : Nat) : ∀ (b : Blk A T E) (i : Nat) (ctx : List Encl) (pre post : List (Op A T E)) (n : Nat),
    n = pre.length →
    patchJmp (pre ++ b.code ctx n ++ post) (b.brks i (ctx.map Encl.sig) n) v
      = pre ++ b.code (setStop ctx i v) n ++ post
  | .nil, i, ctx, pre, post, n, hn => by simp [Blk.code, Blk.brks, patchJmp]
  | .cons s b, i, ctx, pre, post, n, hn => by
    rw [Blk.code, Blk.code, Blk.brks, patchJmp_append, setStop_sig]
    have h1 := Stmt.patch v s i ctx pre (b.code ctx (n + s.len (ctx.map Encl.sig)) ++ post) n hn
    have h2 := Blk.patch v b i ctx (pre ++ s.code (setStop ctx i v) n) post (n + s.len (ctx.map Encl.sig)) (by
      rw [List.length_append, Stmt.code_length, setStop_sig, hn])
    simp only [List.append_assoc] at h1 h2 ⊢
    rw [h1, h2]
theorem Chain.patch (v : Nat) : ∀ (c : Chain A T E) (i : Nat) (ctx : List Encl) (pre post : List (Op A T E)) (n fin : Nat),
    n = pre.length →
    patchJmp (pre ++ c.code ctx n fin ++ post) (c.brks i (ctx.map Encl.sig) n) v
      = pre ++ c.code (setStop ctx i v) n fin ++ post
  | .one t b cl, i, ctx, pre, post, n, fin, hn => by
    simp only [Chain.code, Chain.brks, setStop_sig]
    generalize n + t.len + 1 + b.len ((Kind.plain, none) :: ctx.map Encl.sig) + clearLen cl = next
    have := Blk.patch v b (i + 1) (plainEncl :: ctx) (pre ++ t.code false n ++ [.jz next])
      (clearCode cl ++ post) (n + t.len + 1) (by simp [hn, TestE.code_length]; omega)
    simp only [List.map_cons, Encl.sig, plainEncl, setStop_cons, List.append_assoc, List.cons_append, List.nil_append] at this ⊢
    exact this
  | .els t b cl e cl', i, ctx, pre, post, n, fin, hn => by
    simp only [Chain.code, Chain.brks, setStop_sig]
    generalize hnx : n + t.len + 1 + b.len ((Kind.plain, none) :: ctx.map Encl.sig) + clearLen cl + 1 = next
    have h1 := Blk.patch v b (i + 1) (plainEncl :: ctx) (pre ++ t.code false n ++ [.jz next])
      (clearCode cl ++ .jmp fin :: (e.code (plainEncl :: ctx) next ++ clearCode cl') ++ post)
      (n + t.len + 1) (by simp [hn, TestE.code_length]; omega)
    have h2 := Blk.patch v e (i + 1) (plainEncl :: ctx)
      (pre ++ t.code false n ++ .jz next :: (b.code (plainEncl :: setStop ctx i v) (n + t.len + 1) ++ clearCode cl ++ [.jmp fin]))
      (clearCode cl' ++ post) next (by
        simp only [List.length_append, List.length_cons, TestE.code_length, Blk.code_length, clearCode_length,
          List.map_cons, setStop_sig, List.length_nil, ← hnx, hn]
        simp only [Encl.sig, plainEncl]
        omega)
    rw [patchJmp_append]
    simp only [List.map_cons, Encl.sig, plainEncl, setStop_cons, List.append_assoc, List.cons_append, List.nil_append] at h1 h2 ⊢
    rw [h1, h2]
  | .elif t b cl c, i, ctx, pre, post, n, fin, hn => by
    simp only [Chain.code, Chain.brks, setStop_sig]
    generalize hnx : n + t.len + 1 + b.len ((Kind.plain, none) :: ctx.map Encl.sig) + clearLen cl + 1 = next
    have h1 := Blk.patch v b (i + 1) (plainEncl :: ctx) (pre ++ t.code false n ++ [.jz next])
      (clearCode cl ++ .jmp fin :: c.code ctx next fin ++ post)
      (n + t.len + 1) (by simp [hn, TestE.code_length]; omega)
    have h2 := Chain.patch v c i ctx
      (pre ++ t.code false n ++ .jz next :: (b.code (plainEncl :: setStop ctx i v) (n + t.len + 1) ++ clearCode cl ++ [.jmp fin]))
      post next fin (by
        simp only [List.length_append, List.length_cons, TestE.code_length, Blk.code_length, clearCode_length,
          List.map_cons, setStop_sig, List.length_nil, ← hnx, hn]
        simp only [Encl.sig, plainEncl]
        omega)
    rw [patchJmp_append]
    simp only [List.map_cons, Encl.sig, plainEncl, setStop_cons, List.append_assoc, List.cons_append, List.nil_append] at h1 h2 ⊢
    rw [h1, h2]
end

/-- Positions of the jumps to the end of a chain. -/
def Chain.ifJmps (ks : List Sig) (n : Nat) : Chain A T E → List Nat
  | .one _ _ _ => []
  | .els t b cl _ _ => [n + t.len + 1 + b.len ((.plain, none) :: ks) + clearLen cl]
  | .elif t b cl c => (n + t.len + 1 + b.len ((.plain, none) :: ks) + clearLen cl) ::
      c.ifJmps ks (n + t.len + 1 + b.len ((.plain, none) :: ks) + clearLen cl + 1)

theorem Chain.patchIf (v fin : Nat) (ctx : List Encl) : ∀ (c : Chain A T E) (pre : List (Op A T E)) (n : Nat),
    n = pre.length →
    patchJmp (pre ++ c.code ctx n fin) (c.ifJmps (ctx.map Encl.sig) n) v = pre ++ c.code ctx n v
  | .one t b cl, pre, n, hn => by simp [Chain.code, Chain.ifJmps, patchJmp]
  | .els t b cl e cl', pre, n, hn => by
    simp only [Chain.code, Chain.ifJmps, patchJmp_cons, patchJmp_nil]
    generalize hnx : n + t.len + 1 + b.len ((Kind.plain, none) :: ctx.map Encl.sig) + clearLen cl = next
    have := setJmp_at (pre ++ t.code false n ++ .jz (next + 1) :: (b.code (plainEncl :: ctx) (n + t.len + 1) ++ clearCode cl))
      (e.code (plainEncl :: ctx) (next + 1) ++ clearCode cl') fin v (p := next) (by
        simp only [List.length_append, List.length_cons, TestE.code_length, Blk.code_length, clearCode_length,
          List.map_cons, ← hnx, hn]
        simp only [Encl.sig, plainEncl]
        omega)
    simp only [List.append_assoc, List.cons_append] at this ⊢
    exact this
  | .elif t b cl c, pre, n, hn => by
    simp only [Chain.code, Chain.ifJmps, patchJmp_cons]
    generalize hnx : n + t.len + 1 + b.len ((Kind.plain, none) :: ctx.map Encl.sig) + clearLen cl = next
    have h1 := setJmp_at (pre ++ t.code false n ++ .jz (next + 1) :: (b.code (plainEncl :: ctx) (n + t.len + 1) ++ clearCode cl))
      (c.code ctx (next + 1) fin) fin v (p := next) (by
        simp only [List.length_append, List.length_cons, TestE.code_length, Blk.code_length, clearCode_length,
          List.map_cons, ← hnx, hn]
        simp only [Encl.sig, plainEncl]
        omega)
    have h2 := Chain.patchIf v fin ctx c
      (pre ++ t.code false n ++ .jz (next + 1) :: (b.code (plainEncl :: ctx) (n + t.len + 1) ++ clearCode cl ++ [.jmp v]))
      (next + 1) (by
        simp only [List.length_append, List.length_cons, TestE.code_length, Blk.code_length, clearCode_length,
          List.map_cons, ← hnx, hn, List.length_nil]
        simp only [Encl.sig, plainEncl]
        omega)
    simp only [List.append_assoc, List.cons_append, List.nil_append] at h1 h2 ⊢
    rw [h1, h2]

/-! ## Rounds of the main loop -/

theorem parseLoop_length (m : Nat) (ts : List (Tok A T E)) (ops : List (Op A T E)) (b : TBlock) (st : List TBlock)
    (isNot : Bool) : ∀ {ts' ops'}, parseLoop m ts ops b st isNot = some (ts', ops') → ts'.length ≤ ts.length := by
  fun_induction parseLoop m ts ops b st isNot with
  | case19 =>
    intro _ _ h
    rename_i h1 _ _ _
    have := expectClose_length _ _ _ h1
    simp only [Option.some.injEq, Prod.mk.injEq] at h
    simp [← h.1]
    omega
  | case20 =>
    intro _ _ h
    rename_i h1 _ ih _ _
    have := expectClose_length _ _ _ h1
    have := ih h
    simp
    omega
  | _ => intros; simp_all; try omega

theorem parseTest_length {m : Nat} {ts : List (Tok A T E)} {ops : List (Op A T E)} {ts' ops'}
    (h : parseTest m ts ops = some (ts', ops')) : ts'.length ≤ ts.length := parseLoop_length _ _ _ _ _ _ h

theorem round_length {lim : Limits} {s : State A T E} {t ts ts' s'} (h : round lim s t ts = some (ts', s')) :
    ts'.length ≤ ts.length := by
  cases t with
  | kif =>
    simp only [round] at h
    split at h
    · rename_i h1
      have := parseTest_length h1
      simp at h this
      obtain ⟨_, _, rfl, _⟩ := h
      omega
    · cases h
  | kelsif =>
    simp only [round] at h
    split at h
    · split at h
      · rename_i h1
        have := parseTest_length h1
        simp at h this
        obtain ⟨_, _, rfl, _⟩ := h
        omega
      · cases h
    · cases h
  | kelse =>
    simp only [round] at h
    split at h
    · split at h
      · simp at h
        simp [h.2]
      · cases h
    · cases h
  | kwhile e =>
    simp only [round] at h
    split at h
    · simp at h
      obtain ⟨_, _, rfl, _⟩ := h
      simp
    · cases h
  | kfep l =>
    simp only [round] at h
    split at h
    · cases h
    · split at h
      · cases h
      · split at h
        · simp at h
          obtain ⟨_, _, rfl, _⟩ := h
          simp
        · cases h
  | kbreak l =>
    cases l with
    | none =>
      simp only [round] at h
      split at h <;> simp at h
      · simp [h.1]
      · simp [h.1]
    | some l =>
      simp only [round] at h
      split at h <;> simp at h
      simp [h.1]
  | kcont =>
    simp only [round] at h
    split at h <;> simp at h
    · simp [h.1]
    · simp [h.1]
  | cclose cl =>
    simp [round] at h
    obtain ⟨_, _, rfl, _⟩ := h
    simp
  | _ => simp [round] at h; try simp [h.1]

/-- Zero or more rounds. -/
inductive Runs (lim : Limits) : List (Tok A T E) → State A T E → List (Tok A T E) → State A T E → Prop where
  | refl (ts s) : Runs lim ts s ts s
  | step {t ts s ts1 s1 ts2 s2} : round lim s t ts = some (ts1, s1) → Runs lim ts1 s1 ts2 s2 →
      Runs lim (t :: ts) s ts2 s2

theorem Runs.trans {lim : Limits} {ts ts1 ts2 : List (Tok A T E)} {s s1 s2} (h1 : Runs lim ts s ts1 s1)
    (h2 : Runs lim ts1 s1 ts2 s2) : Runs lim ts s ts2 s2 := by
  induction h1 with
  | refl => exact h2
  | step h _ ih => exact .step h (ih h2)

theorem Runs.one {lim : Limits} {t} {ts ts1 : List (Tok A T E)} {s s1} (h : round lim s t ts = some (ts1, s1)) :
    Runs lim (t :: ts) s ts1 s1 := .step h (.refl _ _)

theorem Runs.rounds {lim : Limits} {ts ts' : List (Tok A T E)} {s s'} (h : Runs lim ts s ts' s') :
    ts' = [] → s'.blocks.length = 1 → ∀ n, ts.length ≤ n → rounds lim n ts s = some s'.ops := by
  induction h with
  | refl =>
    rintro rfl hb n -
    cases n <;> simp [Compile.rounds, hb]
  | step h _ ih =>
    intro h1 h2 n hn
    cases n with
    | zero => simp at hn
    | succ n =>
      have := round_length h
      simp at hn
      rw [Compile.rounds, h]
      exact ih h1 h2 n (by omega)

/-! ## The block stack -/

/-- The kind of an open block. -/
def BType.kind : BType → Kind
  | .while_ => .loop
  | .fep => .parts
  | _ => .plain

/-- The block stack represents these enclosing blocks. -/
def Rel : List Encl → List Block → Prop
  | [], [b] => b.btype = .root ∧ b.label = none
  | e :: ctx, b :: p :: bs => b.btype.kind = e.kind ∧ b.label = e.label ∧ (e.kind ≠ .plain → p.lastStart = e.start) ∧
      Rel ctx (p :: bs)
  | _, _ => False

/-- Recording `break` jumps. -/
def grow (f : Nat → List Nat) : List Block → List Block
  | [] => []
  | b :: bs => { b with breakJmps := b.breakJmps ++ f 0 } :: grow (fun i => f (i + 1)) bs

/-- Changing the current block. -/
def onHead (ls : Nat) (ij : List Nat) : List Block → List Block
  | [] => []
  | b :: bs => { b with lastStart := ls, ifJmps := ij } :: bs

theorem grow_grow : ∀ (bs : List Block) (f g : Nat → List Nat), grow g (grow f bs) = grow (fun i => f i ++ g i) bs
  | [], _, _ => rfl
  | b :: bs, f, g => by simp [grow, grow_grow bs]

theorem grow_onHead (f : Nat → List Nat) (ls ij) (bs : List Block) : grow f (onHead ls ij bs) = onHead ls ij (grow f bs) := by
  cases bs <;> rfl

theorem onHead_onHead (ls ij ls' ij') (bs : List Block) : onHead ls ij (onHead ls' ij' bs) = onHead ls ij bs := by
  cases bs <;> rfl

theorem grow_nil : ∀ (bs : List Block), grow (fun _ => []) bs = bs
  | [] => rfl
  | b :: bs => by simp [grow, grow_nil bs]

theorem onHead_self (b : Block) (bs : List Block) : onHead b.lastStart b.ifJmps (b :: bs) = b :: bs := rfl

theorem addBreak_grow : ∀ (bs : List Block) (i pos : Nat),
    addBreak bs i pos = grow (fun j => if i = j then [pos] else []) bs
  | [], i, pos => by simp [addBreak, grow]
  | b :: bs, 0, pos => by
    have := grow_nil bs
    simp [addBreak, grow, this]
  | b :: bs, i + 1, pos => by
    have := addBreak_grow bs i pos
    simp [addBreak, grow] at this ⊢
    exact this

theorem Rel.grow : ∀ {ctx : List Encl} {bs : List Block} (f : Nat → List Nat), Rel ctx bs → Rel ctx (grow f bs)
  | [], [b], f, h => h
  | e :: ctx, b :: p :: bs, f, h => by
    obtain ⟨h1, h2, h3, h4⟩ := h
    exact ⟨h1, h2, h3, Rel.grow (fun i => f (i + 1)) h4⟩
  | [], [], f, h => h.elim
  | [], _ :: _ :: _, f, h => h.elim
  | _ :: _, [], f, h => h.elim
  | _ :: _, [_], f, h => h.elim

theorem Rel.onHead : ∀ {ctx : List Encl} {bs : List Block} (ls ij), Rel ctx bs → Rel ctx (onHead ls ij bs)
  | [], [b], _, _, h => h
  | e :: ctx, b :: p :: bs, _, _, h => h
  | [], [], _, _, h => h.elim
  | [], _ :: _ :: _, _, _, h => h.elim
  | _ :: _, [], _, _, h => h.elim
  | _ :: _, [_], _, _, h => h.elim

theorem Rel.cases : ∀ {ctx : List Encl} {bs : List Block}, Rel ctx bs → ∃ b tl, bs = b :: tl ∧ tl.length = ctx.length
  | [], [b], h => ⟨b, [], rfl, rfl⟩
  | e :: ctx, b :: p :: bs, h => by
    obtain ⟨b', tl, h1, h2⟩ := Rel.cases h.2.2.2
    cases h1
    exact ⟨b, p :: bs, rfl, by simp [h2]⟩
  | [], [], h => h.elim
  | [], _ :: _ :: _, h => h.elim
  | _ :: _, [], h => h.elim
  | _ :: _, [_], h => h.elim

theorem Rel.tail {e : Encl} {ctx : List Encl} {bs : List Block} (h : Rel (e :: ctx) bs) : Rel ctx bs.tail := by
  match bs, h with
  | b :: p :: bs, h => exact h.2.2.2

theorem Rel.fepCount : ∀ {ctx : List Encl} {bs : List Block}, Rel ctx bs → fepCount bs = partsCount (ctx.map Encl.sig)
  | [], [b], h => by simp [Compile.fepCount, partsCount, h.1]
  | e :: ctx, b :: p :: bs, h => by
    have ih := Rel.fepCount h.2.2.2
    have hk := h.1
    simp only [Compile.fepCount] at ih
    rw [Compile.fepCount, List.countP_cons, ih]
    cases hb : b.btype <;> rw [hb] at hk <;> simp only [BType.kind] at hk <;>
      simp [List.map_cons, Encl.sig, ← hk, partsCount]
  | [], [], h => h.elim
  | [], _ :: _ :: _, h => h.elim
  | _ :: _, [], h => h.elim
  | _ :: _, [_], h => h.elim

theorem Rel.labels : ∀ {ctx : List Encl} {bs : List Block}, Rel ctx bs → ∀ l : Option String, l.isSome →
    (l ∈ bs.map Block.label ↔ l ∈ (ctx.map Encl.sig).map Prod.snd)
  | [], [b], h, l, hl => by
    cases l <;> simp_all [h.2]
  | e :: ctx, b :: p :: bs, h, l, hl => by
    have ih := Rel.labels h.2.2.2 l hl
    rw [List.map_cons, List.mem_cons, ih]
    simp [Encl.sig, h.2.1]
  | [], [], h, _, _ => h.elim
  | [], _ :: _ :: _, h, _, _ => h.elim
  | _ :: _, [], h, _, _ => h.elim
  | _ :: _, [_], h, _, _ => h.elim

theorem Rel.findLoop : ∀ {ctx : List Encl} {bs : List Block}, Rel ctx bs →
    findLoop bs = innermost (ctx.map Encl.sig)
  | [], [b], h => by simp [Compile.findLoop, Block.isLoop, innermost, h.1]
  | e :: ctx, b :: p :: bs, h => by
    have ih := Rel.findLoop h.2.2.2
    have hk := h.1
    rw [Compile.findLoop, ih]
    cases hb : b.btype <;> rw [hb] at hk <;> simp only [BType.kind] at hk <;>
      simp [List.map_cons, Encl.sig, ← hk, innermost, Block.isLoop, hb]
  | [], [], h => h.elim
  | [], _ :: _ :: _, h => h.elim
  | _ :: _, [], h => h.elim
  | _ :: _, [_], h => h.elim

theorem Rel.findLabel (l : String) : ∀ {ctx : List Encl} {bs : List Block} (k : Nat), Rel ctx bs →
    findLabel l bs k = (labelled l (ctx.map Encl.sig)).map
      fun i => (i, k + partsCount ((ctx.map Encl.sig).take (i + 1)))
  | [], [b], k, h => by simp [Compile.findLabel, labelled, h.1]
  | e :: ctx, b :: p :: bs, k, h => by
    have hk := h.1
    rw [Compile.findLabel, List.map_cons, Encl.sig, labelled, ← h.2.1]
    have ih1 := Rel.findLabel l (k + 1) h.2.2.2
    have ih2 := Rel.findLabel l k h.2.2.2
    rw [ih1, ih2]
    cases hb : b.btype <;> rw [hb] at hk <;> simp only [BType.kind] at hk <;> rw [← hk]
    case fep =>
      by_cases hl : b.label = some l
      · simp [hl, partsCount]
      · simp only [hl, if_true, if_false, and_false, Option.map_map]
        congr 1
        funext i
        simp [partsCount]
        omega
    all_goals
      simp [Option.map_map, Function.comp_def, partsCount]
  | [], [], _, h => h.elim
  | [], _ :: _ :: _, _, h => h.elim
  | _ :: _, [], _, h => h.elim
  | _ :: _, [_], _, h => h.elim

theorem Rel.head_kind : ∀ {ctx : List Encl} {b : Block} {bs : List Block}, Rel ctx (b :: bs) →
    (b.btype = .while_ ↔ ∃ l, (ctx.map Encl.sig)[0]? = some (Kind.loop, l))
  | [], b, [], h => by simp [h.1]
  | e :: ctx, b, p :: bs, h => by
    have hk := h.1
    simp only [List.map_cons, List.getElem?_cons_zero, Encl.sig, ← hk]
    cases b.btype <;> simp [BType.kind]
  | [], _, _ :: _, h => h.elim
  | _ :: _, _, [], h => h.elim

theorem Rel.contJump : ∀ {ctx : List Encl} {bs : List Block} {i : Nat}, Rel ctx bs →
    innerWhile (ctx.map Encl.sig) = some i → (∀ l, (ctx.map Encl.sig)[i + 1]? ≠ some (Kind.loop, l)) →
    ∃ e, ctx[i]? = some e ∧ contJump bs 0 = some (some e.start)
  | [], [b], i, h, hi, _ => by simp [innerWhile] at hi
  | e :: ctx, b :: p :: bs, i, h, hi, hl => by
    have hk := h.1
    simp only [List.map_cons, Encl.sig, innerWhile] at hi
    by_cases hw : e.kind = .loop
    · rw [if_pos hw] at hi
      cases hi
      have hb : b.btype = .while_ := by
        cases hb : b.btype <;> rw [hb] at hk <;> simp [BType.kind, hw] at hk
      have hp : p.btype ≠ .while_ := by
        intro hc
        obtain ⟨l, h1⟩ := (Rel.head_kind h.2.2.2).1 hc
        exact hl l (by simpa using h1)
      refine ⟨e, rfl, ?_⟩
      rw [Compile.contJump, if_pos hb, Compile.contJump, if_neg hp, if_pos rfl, h.2.2.1 (by rw [hw]; decide)]
    · rw [if_neg hw] at hi
      simp at hi
      obtain ⟨j, hj, rfl⟩ := hi
      have hb : b.btype ≠ .while_ := by
        intro hb
        rw [hb] at hk
        exact hw hk.symm
      obtain ⟨e', h1, h2⟩ := Rel.contJump (i := j) h.2.2.2 (by simpa using hj) (by simpa using hl)
      refine ⟨e', by simpa using h1, ?_⟩
      rw [Compile.contJump, if_neg hb, if_neg (by decide), h2]
  | [], [], _, h, _, _ => h.elim
  | [], _ :: _ :: _, _, h, _, _ => h.elim
  | _ :: _, [], _, h, _, _ => h.elim
  | _ :: _, [_], _, h, _, _ => h.elim

/-! ## Processing a structured script -/

/-- The rounds that consume the tokens before `rest` append `code` and record the `break`s `f`. -/
def Done (lim : Limits) (ts rest : List (Tok A T E)) (s : State A T E) (code : List (Op A T E))
    (f : Nat → List Nat) : Prop :=
  ∃ ls ij lt, Runs lim ts s rest ⟨s.ops ++ code, onHead ls ij (grow f s.blocks), lt⟩

/-- No `break` target is known yet. -/
def Flat (ctx : List Encl) : Prop := ∀ e ∈ ctx, e.stop = maxPos

theorem Flat.cons {ctx : List Encl} {e : Encl} (h : Flat ctx) (he : e.stop = maxPos) : Flat (e :: ctx) := by
  intro x hx
  rcases List.mem_cons.1 hx with rfl | hx
  · exact he
  · exact h x hx

theorem Flat.jumpOut {ctx : List Encl} (h : Flat ctx) {i : Nat} (hi : i < ctx.length) :
    (jumpOut ctx i : List (Op A T E)) = [.jmp maxPos] := by
  simp [Compile.jumpOut, hi, h _ (List.getElem_mem hi)]

theorem Done.simple {lim : Limits} {ts rest : List (Tok A T E)} {s : State A T E} {t} {code : List (Op A T E)}
    {ctx} (hr : Rel ctx s.blocks)
    (h : round lim s t rest = some (rest, { s with ops := s.ops ++ code })) (ht : ts = t :: rest) :
    Done lim ts rest s code (fun _ => []) := by
  subst ht
  obtain ⟨b, tl, hb, -⟩ := hr.cases
  refine ⟨b.lastStart, b.ifJmps, s.lastType, .one ?_⟩
  rw [grow_nil, hb, onHead_self, ← hb]
  exact h

theorem Done.breaks {lim : Limits} {ts rest : List (Tok A T E)} {s : State A T E} {t} {code : List (Op A T E)}
    {ctx} {i p : Nat} (hr : Rel ctx s.blocks)
    (h : round lim s t rest = some (rest, { s with ops := s.ops ++ code, blocks := addBreak s.blocks i p }))
    (ht : ts = t :: rest) :
    Done lim ts rest s code (fun j => if i = j then [p] else []) := by
  subst ht
  obtain ⟨b, tl, hb, -⟩ := hr.cases
  refine ⟨b.lastStart, b.ifJmps, s.lastType, .one ?_⟩
  rw [h, addBreak_grow, hb]
  rfl

theorem openBlock_eq {lim : Limits} {s : State A T E} {cur stack} (new : Block) (hb : s.blocks = cur :: stack)
    (hl : stack.length < lim.blocks) :
    openBlock lim s new = some { s with blocks := new :: { cur with lastStart := s.ops.length - 1 } :: stack } := by
  simp [openBlock, hb, hl]

theorem isElse_stmt (s : Stmt A T E) (rest) : isElse (s.toks ++ rest) = false := by
  cases s with
  | cond c => cases c <;> simp [Stmt.toks, Chain.toks, isElse]
  | _ => simp [Stmt.toks, isElse]

theorem isElse_blk (b : Blk A T E) (rest) (h : isElse rest = false) : isElse (b.toks ++ rest) = false := by
  cases b with
  | nil => simpa [Blk.toks] using h
  | cons s b => rw [Blk.toks, List.append_assoc]; exact isElse_stmt s _

theorem isElse_chain (c : Chain A T E) (rest) : isElse (c.toks false ++ rest) = true := by
  cases c <;> simp [Chain.toks, isElse]

theorem patchStart_loop {pre post : List (Op A T E)} {p v : Nat} {e : E} (hp : p = pre.length) :
    patchStart (pre ++ .loop e maxPos :: post) .while_ p v = pre ++ .loop e v :: post := by
  subst hp; simp [patchStart]

theorem patchStart_fep {pre post : List (Op A T E)} {p v : Nat} (hp : p = pre.length) :
    patchStart (pre ++ .fep maxPos :: post) .fep p v = pre ++ .fep v :: post := by
  subst hp; simp [patchStart]

theorem patchStart_if {pre post : List (Op A T E)} {t : BType} {p v : Nat} (hp : p = pre.length)
    (ht : t = .if_ ∨ t = .elsif) :
    patchStart (pre ++ .jz maxPos :: post) t p v = pre ++ .jz v :: post := by
  subst hp
  rcases ht with rfl | rfl <;> simp [patchStart]

theorem close_while {pre body : List (Op A T E)} {e : E} {cur prev : Block} {stack lt cl next} {stop : Nat}
    (hc : cur.btype = .while_) (hp : prev.lastStart = pre.length)
    (hs : stop = pre.length + (1 + body.length + clearLen cl + 1)) :
    closeBlock ⟨pre ++ [.loop e maxPos] ++ body, cur :: prev :: stack, lt⟩ cl next =
      some ⟨patchJmp (pre ++ .loop e stop :: (body ++ clearCode cl ++ [Op.jmp pre.length])) cur.breakJmps stop,
        prev :: stack, .root⟩ := by
  have hl : (pre ++ [Op.loop e maxPos] ++ body ++ clearCode cl ++ [Op.jmp pre.length]).length = stop := by
    simp only [List.length_append, List.length_cons, List.length_nil, clearCode_length, hs]
    omega
  have h2 := patchStart_loop (A := A) (T := T) (pre := pre) (post := body ++ clearCode cl ++ [Op.jmp pre.length]) (p := pre.length) (v := stop) (e := e) rfl
  simp only [List.append_assoc, List.cons_append, List.nil_append] at hl h2
  simp only [closeBlock, hc, hp]
  simp only [List.append_assoc, List.cons_append, List.nil_append, ← clearCode.eq_def, hl, h2]

theorem close_fep {pre body : List (Op A T E)} {cur prev : Block} {stack lt cl next} {stop : Nat}
    (hc : cur.btype = .fep) (hp : prev.lastStart = pre.length)
    (hs : stop = pre.length + (1 + body.length + clearLen cl + 1)) :
    closeBlock ⟨pre ++ [.fep maxPos] ++ body, cur :: prev :: stack, lt⟩ cl next =
      some ⟨patchJmp (pre ++ .fep stop :: (body ++ clearCode cl ++ [Op.jmp pre.length])) cur.breakJmps stop,
        prev :: stack, .root⟩ := by
  have hl : (pre ++ [Op.fep maxPos] ++ body ++ clearCode cl ++ [Op.jmp pre.length]).length = stop := by
    simp only [List.length_append, List.length_cons, List.length_nil, clearCode_length, hs]
    omega
  have h2 := patchStart_fep (A := A) (T := T) (E := E) (pre := pre) (post := body ++ clearCode cl ++ [Op.jmp pre.length]) (p := pre.length) (v := stop) rfl
  simp only [List.append_assoc, List.cons_append, List.nil_append] at hl h2
  simp only [closeBlock, hc, hp]
  simp only [List.append_assoc, List.cons_append, List.nil_append, ← clearCode.eq_def, hl, h2]

/-- Closing an `if` or `elsif` block that ends the chain. -/
theorem close_if {pre body : List (Op A T E)} {cur prev : Block} {stack lt cl} {stop : Nat}
    (hc : cur.btype = .if_ ∨ cur.btype = .elsif) (hp : prev.lastStart = pre.length)
    (hs : stop = pre.length + 1 + body.length + clearLen cl) :
    closeBlock ⟨pre ++ [.jz maxPos] ++ body, cur :: prev :: stack, lt⟩ cl false =
      some ⟨patchJmp (pre ++ .jz stop :: (body ++ clearCode cl)) prev.ifJmps stop,
        { prev with ifJmps := [] } :: stack, .root⟩ := by
  have hl : (pre ++ [Op.jz maxPos] ++ body ++ clearCode cl).length = stop := by
    simp only [List.length_append, List.length_cons, List.length_nil, clearCode_length, hs]
  have h2 := patchStart_if (pre := pre) (post := body ++ clearCode cl) (t := cur.btype) (p := pre.length) (v := stop) rfl hc
  simp only [List.append_assoc, List.cons_append, List.nil_append] at hl h2
  rcases hc with hc | hc <;>
    simp only [hc] at h2 <;>
    simp only [closeBlock, hc, hp, List.append_assoc, List.cons_append, List.nil_append, ← clearCode.eq_def, hl, h2,
      if_false, Bool.false_eq_true]

/-- Closing an `if` or `elsif` block followed by `elsif` or `else`. -/
theorem close_if_next {pre body : List (Op A T E)} {cur prev : Block} {stack lt cl} {stop : Nat}
    (hc : cur.btype = .if_ ∨ cur.btype = .elsif) (hp : prev.lastStart = pre.length)
    (hs : stop = pre.length + 1 + body.length + clearLen cl) :
    closeBlock ⟨pre ++ [.jz maxPos] ++ body, cur :: prev :: stack, lt⟩ cl true =
      some ⟨pre ++ .jz (stop + 1) :: (body ++ clearCode cl ++ [Op.jmp maxPos]),
        { prev with ifJmps := prev.ifJmps ++ [stop] } :: stack, cur.btype⟩ := by
  have hl : (pre ++ [Op.jz maxPos] ++ body ++ clearCode cl).length = stop := by
    simp only [List.length_append, List.length_cons, List.length_nil, clearCode_length, hs]
  have hl2 : (pre ++ [Op.jz maxPos] ++ body ++ clearCode cl ++ [Op.jmp maxPos]).length = stop + 1 := by
    rw [List.length_append, hl]
    rfl
  have h2 := patchStart_if (pre := pre) (post := body ++ clearCode cl ++ [Op.jmp maxPos]) (t := cur.btype) (p := pre.length) (v := stop + 1) rfl hc
  simp only [List.append_assoc, List.cons_append, List.nil_append] at hl hl2 h2
  rcases hc with hc | hc <;>
    simp only [hc] at h2 <;>
    simp only [closeBlock, hc, hp, List.append_assoc, List.cons_append, List.nil_append, ← clearCode.eq_def, hl, hl2, h2,
      if_true]

theorem close_else {ops : List (Op A T E)} {cur prev : Block} {stack lt cl next} {stop : Nat}
    (hc : cur.btype = .else_) (hs : stop = ops.length + clearLen cl) :
    closeBlock ⟨ops, cur :: prev :: stack, lt⟩ cl next =
      some ⟨patchJmp (ops ++ clearCode cl) prev.ifJmps stop, { prev with ifJmps := [] } :: stack, .else_⟩ := by
  have hl : (ops ++ clearCode cl).length = stop := by
    simp only [List.length_append, clearCode_length, hs]
  simp only [closeBlock, hc, ← clearCode.eq_def, hl]

theorem Rel.plain {ctx : List Encl} {bs : List Block} {cur stack} {t : BType} {n js} (ht : t.kind = .plain)
    (hb : bs = cur :: stack) (hr : Rel ctx bs) :
    Rel (plainEncl :: ctx) (.new t :: { cur with lastStart := n, ifJmps := js } :: stack) := by
  subst hb
  exact ⟨ht, rfl, fun h => (h rfl).elim, hr.onHead n js⟩

theorem open_if {lim : Limits} {s : State A T E} {t : TestE A T E} {more : List (Tok A T E)} {first : Bool} {js : List Nat}
    {cur stack} (hb : s.blocks = cur :: stack) (hl : stack.length < lim.blocks) (ht : t.depth ≤ lim.tests)
    (h0 : first = false → (s.lastType = .if_ ∨ s.lastType = .elsif) ∧ cur.ifJmps = js) (h1 : first = true → js = []) :
    round lim s (if first then .kif else .kelsif) (t.toks ++ .copen :: more) =
      some (more, ⟨s.ops ++ t.code false s.ops.length ++ [.jz maxPos],
        .new (if first then .if_ else .elsif) ::
          { cur with lastStart := (s.ops ++ t.code false s.ops.length).length, ifJmps := js } :: stack, s.lastType⟩) := by
  cases first with
  | true =>
    cases h1 rfl
    simp only [if_true, round, parse_render _ _ _ ht]
    simp [openBlock, hb, hl]
  | false =>
    obtain ⟨h2, h3⟩ := h0 rfl
    simp only [if_false, round, parse_render _ _ _ ht, if_pos h2, Bool.false_eq_true]
    simp [openBlock, hb, hl, ← h3]

theorem Rel.length_eq {ctx : List Encl} {bs : List Block} {cur stack} (hr : Rel ctx bs) (hb : bs = cur :: stack) :
    stack.length = ctx.length := by
  obtain ⟨_, _, hb', h⟩ := hr.cases
  rw [hb] at hb'
  cases hb'
  exact h

/-- Up to the closing brace of an `if` or `elsif` block. -/
theorem if_body {lim : Limits} {s : State A T E} {t : TestE A T E} {b : Blk A T E} {more : List (Tok A T E)} {first : Bool}
    {js : List Nat} {cl : Option A} {ctx : List Encl}
    {cur stack} (hb : s.blocks = cur :: stack) (hr : Rel ctx s.blocks) (hl : ctx.length < lim.blocks)
    (ht : t.depth ≤ lim.tests)
    (h0 : first = false → (s.lastType = .if_ ∨ s.lastType = .elsif) ∧ cur.ifJmps = js) (h1 : first = true → js = [])
    (hbody : ∀ s' : State A T E, Rel (plainEncl :: ctx) s'.blocks → Done lim (b.toks ++ .cclose cl :: more) (.cclose cl :: more) s'
      (b.code (plainEncl :: ctx) s'.ops.length) (b.brks · ((plainEncl :: ctx).map Encl.sig) s'.ops.length)) :
    ∃ ls ij lt, Runs lim ((if first then .kif else .kelsif) :: (t.toks ++ .copen :: (b.toks ++ .cclose cl :: more))) s
      (.cclose cl :: more)
      ⟨s.ops ++ t.code false s.ops.length ++ [.jz maxPos] ++ b.code (plainEncl :: ctx) (s.ops.length + t.len + 1),
        ⟨if first then .if_ else .elsif, none, ls, ij,
          b.brks 0 ((.plain, none) :: ctx.map Encl.sig) (s.ops.length + t.len + 1)⟩ ::
        { cur with lastStart := (s.ops ++ t.code false s.ops.length).length, ifJmps := js,
                   breakJmps := cur.breakJmps ++ b.brks 1 ((.plain, none) :: ctx.map Encl.sig) (s.ops.length + t.len + 1) } ::
        grow (fun i => b.brks (i + 2) ((.plain, none) :: ctx.map Encl.sig) (s.ops.length + t.len + 1)) stack, lt⟩ := by
  have h2 := open_if (more := b.toks ++ .cclose cl :: more) hb (by rw [hr.length_eq hb]; exact hl) ht h0 h1
  obtain ⟨ls, ij, lt, h3⟩ := hbody ⟨s.ops ++ t.code false s.ops.length ++ [.jz maxPos],
      .new (if first then .if_ else .elsif) ::
        { cur with lastStart := (s.ops ++ t.code false s.ops.length).length, ifJmps := js } :: stack, s.lastType⟩
      (Rel.plain (by cases first <;> rfl) hb hr)
  have hlen2 : (s.ops ++ t.code false s.ops.length ++ [Op.jz maxPos]).length = s.ops.length + t.len + 1 := by
    simp only [List.length_append, TestE.code_length, List.length_cons, List.length_nil]
  refine ⟨ls, ij, lt, .step h2 ?_⟩
  simp only [hlen2] at h3
  exact h3

/-- `else {` … up to the closing brace. -/
theorem else_body {lim : Limits} {s : State A T E} {b : Blk A T E} {more : List (Tok A T E)}
    {cl : Option A} {ctx : List Encl}
    {cur stack} (hb : s.blocks = cur :: stack) (hr : Rel ctx s.blocks) (hl : ctx.length < lim.blocks)
    (h0 : s.lastType = .if_ ∨ s.lastType = .elsif)
    (hbody : ∀ s' : State A T E, Rel (plainEncl :: ctx) s'.blocks → Done lim (b.toks ++ .cclose cl :: more) (.cclose cl :: more) s'
      (b.code (plainEncl :: ctx) s'.ops.length) (b.brks · ((plainEncl :: ctx).map Encl.sig) s'.ops.length)) :
    ∃ ls ls' ij lt, Runs lim (.kelse :: .copen :: (b.toks ++ .cclose cl :: more)) s
      (.cclose cl :: more)
      ⟨s.ops ++ b.code (plainEncl :: ctx) s.ops.length,
        ⟨.else_, none, ls, ij,
          b.brks 0 ((.plain, none) :: ctx.map Encl.sig) s.ops.length⟩ ::
        { cur with lastStart := ls',
                   breakJmps := cur.breakJmps ++ b.brks 1 ((.plain, none) :: ctx.map Encl.sig) s.ops.length } ::
        grow (fun i => b.brks (i + 2) ((.plain, none) :: ctx.map Encl.sig) s.ops.length) stack, lt⟩ := by
  have h2 : round lim s .kelse (.copen :: (b.toks ++ .cclose cl :: more)) = some (b.toks ++ .cclose cl :: more,
      ⟨s.ops, .new .else_ :: { cur with lastStart := s.ops.length - 1 } :: stack, s.lastType⟩) := by
    have := hr.length_eq hb
    simp [round, openBlock, hb, h0, this, hl]
  obtain ⟨ls, ij, lt, h3⟩ := hbody ⟨s.ops, .new .else_ :: { cur with lastStart := s.ops.length - 1 } :: stack, s.lastType⟩
      (Rel.plain (js := cur.ifJmps) rfl hb hr)
  refine ⟨ls, s.ops.length - 1, ij, lt, .step h2 ?_⟩
  exact h3

mutual
theorem Stmt.run {lim : Limits} : ∀ (x : Stmt A T E) (ctx : List Encl) (s : State A T E) (rest : List (Tok A T E)),
    Rel ctx s.blocks → Flat ctx → x.Ok lim (ctx.map Encl.sig) → isElse rest = false →
    Done lim (x.toks ++ rest) rest s (x.code ctx s.ops.length) (x.brks · (ctx.map Encl.sig) s.ops.length)
  | .act is, ctx, s, rest, hr, hf, ok, he => by
    simp only [Stmt.toks, Stmt.code, Stmt.brks]
    exact .simple hr rfl rfl
  | .eval e, ctx, s, rest, hr, hf, ok, he => by
    simp only [Stmt.toks, Stmt.code, Stmt.brks]
    exact .simple hr rfl rfl
  | .vac t a, ctx, s, rest, hr, hf, ok, he => by
    simp only [Stmt.toks, Stmt.code, Stmt.brks]
    exact .simple hr rfl rfl
  | .ret, ctx, s, rest, hr, hf, ok, he => by
    simp only [Stmt.toks, Stmt.code, Stmt.brks]
    refine .simple (t := .kret) hr ?_ rfl
    simp only [round, hr.fepCount]
    cases h : partsCount (ctx.map Encl.sig) <;> simp
  | .cont, ctx, s, rest, hr, hf, ok, he => by
    simp only [Stmt.toks, Stmt.code, Stmt.brks]
    obtain ⟨i, h1, h2⟩ := ok
    obtain ⟨e, h3, h4⟩ := hr.contJump h1 h2
    refine .simple (t := .kcont) hr ?_ rfl
    simp [round, h4, h1, h3]
  | .brk none, ctx, s, rest, hr, hf, ok, he => by
    simp only [Stmt.toks, Stmt.code, Stmt.brks]
    simp only [Stmt.Ok] at ok
    cases h : innermost (ctx.map Encl.sig) with
    | none => simp [h] at ok
    | some x =>
      obtain ⟨j, f⟩ := x
      have hj : j < ctx.length := by simpa using innermost_lt h
      cases f with
      | true =>
        refine Done.breaks (t := .kbreak none) hr ?_ rfl
        simp [round, hr.findLoop, h, hf.jumpOut hj]
      | false =>
        refine Done.breaks (t := .kbreak none) hr ?_ rfl
        simp [round, hr.findLoop, h, hf.jumpOut hj]
  | .brk (some l), ctx, s, rest, hr, hf, ok, he => by
    simp only [Stmt.toks, Stmt.code, Stmt.brks]
    simp only [Stmt.Ok] at ok
    cases h : labelled l (ctx.map Encl.sig) with
    | none => simp [h] at ok
    | some j =>
      have hj : j < ctx.length := by simpa using labelled_lt h
      refine Done.breaks (t := .kbreak (some l)) hr ?_ rfl
      have h2 := hr.findLabel l 0
      rw [h] at h2
      simp at h2
      simp [round, h2, hf.jumpOut hj]
  | .cond c, ctx, s, rest, hr, hf, ok, he => by
    simp only [Stmt.toks, Stmt.code, Stmt.brks, Stmt.Ok] at ok ⊢
    obtain ⟨cur, stack, hb, hlen⟩ := hr.cases
    obtain ⟨ls, ij, lt, h⟩ := Chain.run (lim := lim) c ctx s rest true [] cur stack hb hr hf ok he (by simp) (by simp)
    refine ⟨ls, ij, lt, ?_⟩
    rw [List.nil_append, Chain.patchIf _ _ _ _ _ _ rfl] at h
    exact h
  | .loop e b cl, ctx, s, rest, hr, hf, ok, he => by
    obtain ⟨ok1, ok2⟩ := ok
    simp only [Stmt.toks, Stmt.code, Stmt.brks]
    obtain ⟨cur, stack, hb, hlen⟩ := hr.cases
    have h1 : round lim s (.kwhile e) (.copen :: (b.toks ++ [.cclose cl]) ++ rest) =
        some (b.toks ++ .cclose cl :: rest, ⟨s.ops ++ [.loop e maxPos],
          .new .while_ :: { cur with lastStart := s.ops.length } :: stack, s.lastType⟩) := by
      simp only [round, List.cons_append]
      rw [openBlock_eq (s := ⟨s.ops ++ [Op.loop e maxPos], s.blocks, s.lastType⟩) (cur := cur) (stack := stack) _ hb
        (by simpa [hlen] using ok1)]
      simp
    obtain ⟨ls, ij, lt, h2⟩ := Blk.run (lim := lim) b (⟨.loop, none, s.ops.length, maxPos⟩ :: ctx)
      ⟨s.ops ++ [.loop e maxPos], .new .while_ :: { cur with lastStart := s.ops.length } :: stack, s.lastType⟩
      (.cclose cl :: rest) ⟨rfl, rfl, fun _ => rfl, by rw [hb] at hr; exact hr.onHead _ cur.ifJmps⟩
      (hf.cons rfl) ok2 rfl
    refine ⟨s.ops.length, cur.ifJmps, .root, .step h1 (h2.trans (.one ?_))⟩
    simp only [round, onHead, grow, Block.new, List.nil_append]
    rw [close_while (stop := s.ops.length + (1 + b.len ((Kind.loop, none) :: ctx.map Encl.sig) + clearLen cl + 1)) rfl rfl
      (by simp only [Blk.code_length, List.map_cons, Encl.sig])]
    generalize s.ops.length + (1 + b.len ((Kind.loop, none) :: ctx.map Encl.sig) + clearLen cl + 1) = stop
    have hp := Blk.patch stop b 0 (⟨.loop, none, s.ops.length, maxPos⟩ :: ctx) (s.ops ++ [.loop e stop])
      (clearCode cl ++ [.jmp s.ops.length]) (s.ops.length + 1) (by simp)
    simp only [List.append_assoc, List.cons_append, List.nil_append, List.length_append, List.length_cons, List.length_nil,
      hb, onHead, grow, Option.map_some, List.map_cons, Encl.sig] at hp ⊢
    rw [hp]
    rfl
  | .parts l b cl, ctx, s, rest, hr, hf, ok, he => by
    obtain ⟨ok1, ok2, ok3, ok4⟩ := ok
    simp only [Stmt.toks, Stmt.code, Stmt.brks]
    obtain ⟨cur, stack, hb, hlen⟩ := hr.cases
    have h1 : round lim s (.kfep l) (.copen :: (b.toks ++ [.cclose cl]) ++ rest) =
        some (b.toks ++ .cclose cl :: rest, ⟨s.ops ++ [.fepPush] ++ [.fep maxPos],
          .new .fep l :: { cur with lastStart := (s.ops ++ [Op.fepPush]).length } :: stack, s.lastType⟩) := by
      have ht1 : fepCount s.blocks.tail ≠ lim.feps := by
        cases ctx with
        | nil =>
          have : stack = [] := by simpa using hlen
          simpa [hb, this, fepCount, partsCount] using ok2
        | cons e ctx =>
          rw [hr.tail.fepCount]
          exact ok2
      have ht2 : ¬ (l.isSome = true ∧ l ∈ s.blocks.tail.map Block.label) := by
        rintro ⟨hl, hm⟩
        cases ctx with
        | nil =>
          have : stack = [] := by simpa using hlen
          simp [hb, this] at hm
        | cons e ctx => exact ok3 hl ((hr.tail.labels l hl).1 hm)
      simp only [round, List.cons_append]
      rw [if_neg ht1, if_neg ht2, openBlock_eq (s := ⟨s.ops ++ [Op.fepPush, Op.fep maxPos], s.blocks, s.lastType⟩)
        (cur := cur) (stack := stack) _ hb (by simpa [hlen] using ok1)]
      simp
    obtain ⟨ls, ij, lt, h2⟩ := Blk.run (lim := lim) b (⟨.parts, l, s.ops.length + 1, maxPos⟩ :: ctx)
      ⟨s.ops ++ [.fepPush] ++ [.fep maxPos],
        .new .fep l :: { cur with lastStart := (s.ops ++ [Op.fepPush (A := A) (T := T) (E := E)]).length } :: stack, s.lastType⟩
      (.cclose cl :: rest) ⟨rfl, rfl, fun _ => by simp, by rw [hb] at hr; exact hr.onHead _ cur.ifJmps⟩
      (hf.cons rfl) ok4 rfl
    refine ⟨s.ops.length + 1, cur.ifJmps, .root, .step h1 (h2.trans (.one ?_))⟩
    simp only [round, onHead, grow, Block.new, List.nil_append]
    rw [close_fep (stop := s.ops.length + (2 + b.len ((Kind.parts, l) :: ctx.map Encl.sig) + clearLen cl + 1)) rfl rfl
      (by simp only [Blk.code_length, List.map_cons, Encl.sig, List.length_append, List.length_cons, List.length_nil]; omega)]
    generalize s.ops.length + (2 + b.len ((Kind.parts, l) :: ctx.map Encl.sig) + clearLen cl + 1) = stop
    have hp := Blk.patch stop b 0 (⟨.parts, l, s.ops.length + 1, maxPos⟩ :: ctx) (s.ops ++ [.fepPush, .fep stop])
      (clearCode cl ++ [.jmp (s.ops.length + 1)]) (s.ops.length + 2) (by simp)
    simp only [List.append_assoc, List.cons_append, List.nil_append, List.length_append, List.length_cons, List.length_nil,
      hb, onHead, grow, Option.map_some, List.map_cons, Encl.sig] at hp ⊢
    rw [hp]
    rfl
theorem Blk.run {lim : Limits} : ∀ (x : Blk A T E) (ctx : List Encl) (s : State A T E) (rest : List (Tok A T E)),
    Rel ctx s.blocks → Flat ctx → x.Ok lim (ctx.map Encl.sig) → isElse rest = false →
    Done lim (x.toks ++ rest) rest s (x.code ctx s.ops.length) (x.brks · (ctx.map Encl.sig) s.ops.length)
  | .nil, ctx, s, rest, hr, hf, ok, he => by
    simp only [Blk.toks, Blk.code, Blk.brks]
    obtain ⟨cur, stack, hb, hlen⟩ := hr.cases
    refine ⟨cur.lastStart, cur.ifJmps, s.lastType, ?_⟩
    rw [grow_nil, hb, onHead_self, ← hb]
    simp
    exact .refl _ _
  | .cons x b, ctx, s, rest, hr, hf, ok, he => by
    simp only [Blk.toks, Blk.code, Blk.brks, List.append_assoc]
    obtain ⟨ls, ij, lt, h1⟩ := Stmt.run (lim := lim) x ctx s (b.toks ++ rest) hr hf ok.1 (isElse_blk b rest he)
    obtain ⟨ls', ij', lt', h2⟩ := Blk.run (lim := lim) b ctx
      ⟨s.ops ++ x.code ctx s.ops.length, onHead ls ij (grow (x.brks · (ctx.map Encl.sig) s.ops.length) s.blocks), lt⟩
      rest ((hr.grow _).onHead ls ij) hf ok.2 he
    refine ⟨ls', ij', lt', h1.trans ?_⟩
    simpa [grow_onHead, onHead_onHead, grow_grow, Stmt.code_length] using h2
theorem Chain.run {lim : Limits} : ∀ (c : Chain A T E) (ctx : List Encl) (s : State A T E) (rest : List (Tok A T E))
    (first : Bool) (js : List Nat) (cur : Block) (stack : List Block), s.blocks = cur :: stack →
    Rel ctx s.blocks → Flat ctx → c.Ok lim (ctx.map Encl.sig) → isElse rest = false →
    (first = false → (s.lastType = .if_ ∨ s.lastType = .elsif) ∧ cur.ifJmps = js) → (first = true → js = []) →
    ∃ ls ij lt, Runs lim (c.toks first ++ rest) s rest
      ⟨patchJmp (s.ops ++ c.code ctx s.ops.length maxPos) (js ++ c.ifJmps (ctx.map Encl.sig) s.ops.length)
        (s.ops.length + c.len (ctx.map Encl.sig)),
       onHead ls ij (grow (c.brks · (ctx.map Encl.sig) s.ops.length) s.blocks), lt⟩
  | .one t b cl, ctx, s, rest, first, js, cur, stack, hb, hr, hf, ok, he, h0, h1 => by
    obtain ⟨ok1, ok2, ok3⟩ := ok
    have hlen := hr.length_eq hb
    obtain ⟨ls, ij, lt, h3⟩ := if_body (lim := lim) (more := rest) (cl := cl) hb hr (by simpa using ok2) ok1 h0 h1
      (fun s' hr' => Blk.run (lim := lim) b (plainEncl :: ctx) s' _ hr' (hf.cons rfl) ok3 rfl)
    refine ⟨(s.ops ++ t.code false s.ops.length).length, [], .root, ?_⟩
    have ht : (Chain.one t b cl).toks first ++ rest =
        (if first then .kif else .kelsif) :: (t.toks ++ .copen :: (b.toks ++ .cclose cl :: rest)) := by
      simp [Chain.toks]
    rw [ht]
    refine h3.trans (.one ?_)
    simp only [round, he, Chain.ifJmps, List.append_nil]
    rw [close_if (stop := s.ops.length + (Chain.one t b cl).len (ctx.map Encl.sig)) (by cases first <;> simp) rfl (by
      simp only [Blk.code_length, List.map_cons, Encl.sig, plainEncl, List.length_append, TestE.code_length, Chain.len]
      omega)]
    simp only [Chain.code, Chain.len, Chain.brks, Option.map_some, hb, onHead, grow, List.append_assoc, List.map_cons,
      Encl.sig, plainEncl, ← Nat.add_assoc]
  | .els t b cl e cl', ctx, s, rest, first, js, cur, stack, hb, hr, hf, ok, he, h0, h1 => by
    obtain ⟨ok1, ok2, ok3, ok4⟩ := ok
    have hlen := hr.length_eq hb
    obtain ⟨ls, ij, lt, h3⟩ := if_body (lim := lim) (more := .kelse :: .copen :: (e.toks ++ .cclose cl' :: rest)) (cl := cl)
      hb hr (by simpa using ok2) ok1 h0 h1
      (fun s' hr' => Blk.run (lim := lim) b (plainEncl :: ctx) s' _ hr' (hf.cons rfl) ok3 rfl)
    have ht : (Chain.els t b cl e cl').toks first ++ rest =
        (if first then .kif else .kelsif) :: (t.toks ++ .copen :: (b.toks ++ .cclose cl ::
          .kelse :: .copen :: (e.toks ++ .cclose cl' :: rest))) := by
      simp [Chain.toks]
    rw [ht]
    have hc := close_if_next (pre := s.ops ++ t.code false s.ops.length)
      (body := b.code (plainEncl :: ctx) (s.ops.length + t.len + 1))
      (cur := ⟨if first then .if_ else .elsif, none, ls, ij, b.brks 0 ((.plain, none) :: ctx.map Encl.sig) (s.ops.length + t.len + 1)⟩)
      (prev := { cur with lastStart := (s.ops ++ t.code false s.ops.length).length, ifJmps := js, breakJmps := cur.breakJmps ++ b.brks 1 ((.plain, none) :: ctx.map Encl.sig) (s.ops.length + t.len + 1) })
      (stack := grow (fun i => b.brks (i + 2) ((.plain, none) :: ctx.map Encl.sig) (s.ops.length + t.len + 1)) stack)
      (lt := lt) (cl := cl)
      (stop := s.ops.length + t.len + 1 + b.len ((Kind.plain, none) :: ctx.map Encl.sig) + clearLen cl)
      (by cases first <;> simp) rfl (by
      simp only [Blk.code_length, List.map_cons, Encl.sig, plainEncl, List.length_append, TestE.code_length])
    generalize hnx : s.ops.length + t.len + 1 + b.len ((Kind.plain, none) :: ctx.map Encl.sig) + clearLen cl = stop at hc
    have hr2 : Rel ctx (onHead (s.ops ++ t.code false s.ops.length).length (js ++ [stop])
        (grow (fun i => b.brks (i + 1) ((.plain, none) :: ctx.map Encl.sig) (s.ops.length + t.len + 1)) s.blocks)) :=
      (hr.grow _).onHead _ _
    have hlen3 : (s.ops ++ t.code false s.ops.length ++ Op.jz (stop + 1) ::
        (b.code (plainEncl :: ctx) (s.ops.length + t.len + 1) ++ clearCode cl ++ [Op.jmp maxPos])).length = stop + 1 := by
      simp only [Blk.code_length, List.map_cons, Encl.sig, plainEncl, List.length_append, TestE.code_length, clearCode_length,
        List.length_cons, List.length_nil, ← hnx]
      omega
    rw [hb] at hr2
    have h4 : round lim _ (.cclose cl) (.kelse :: .copen :: (e.toks ++ .cclose cl' :: rest)) = some (_, _) :=
      congrArg (Option.map (_, ·)) hc
    obtain ⟨ls2, ls2', ij2, lt2, h5⟩ := else_body (lim := lim)
      (s := ⟨s.ops ++ t.code false s.ops.length ++ Op.jz (stop + 1) ::
        (b.code (plainEncl :: ctx) (s.ops.length + t.len + 1) ++ clearCode cl ++ [Op.jmp maxPos]), _,
          if first then .if_ else .elsif⟩) (more := rest) (cl := cl') (ctx := ctx)
      rfl hr2 (by simpa using ok2) (by cases first <;> simp)
      (fun s' hr' => Blk.run (lim := lim) e (plainEncl :: ctx) s' _ hr' (hf.cons rfl) ok4 rfl)
    refine ⟨ls2', [], .else_, h3.trans (.step h4 (h5.trans (.one ?_)))⟩
    simp only [round]
    rw [close_else (stop := s.ops.length + (Chain.els t b cl e cl').len (ctx.map Encl.sig)) rfl (by
      rw [List.length_append, hlen3]
      simp only [Blk.code_length, List.map_cons, Encl.sig, plainEncl, Chain.len, ← hnx]
      omega)]
    simp only [hlen3]
    simp only [Chain.code, Chain.len, Chain.brks, Chain.ifJmps, Option.map_some, hb, onHead, grow, List.append_assoc, List.map_cons,
      Encl.sig, plainEncl, ← Nat.add_assoc, hnx, grow_grow, List.cons_append, List.nil_append]
  | .elif t b cl c, ctx, s, rest, first, js, cur, stack, hb, hr, hf, ok, he, h0, h1 => by
    obtain ⟨ok1, ok2, ok3, ok4⟩ := ok
    have hlen := hr.length_eq hb
    obtain ⟨ls, ij, lt, h3⟩ := if_body (lim := lim) (more := c.toks false ++ rest) (cl := cl)
      hb hr (by simpa using ok2) ok1 h0 h1
      (fun s' hr' => Blk.run (lim := lim) b (plainEncl :: ctx) s' _ hr' (hf.cons rfl) ok3 rfl)
    have ht : (Chain.elif t b cl c).toks first ++ rest =
        (if first then .kif else .kelsif) :: (t.toks ++ .copen :: (b.toks ++ .cclose cl ::
          (c.toks false ++ rest))) := by
      simp [Chain.toks]
    rw [ht]
    have hc := close_if_next (pre := s.ops ++ t.code false s.ops.length)
      (body := b.code (plainEncl :: ctx) (s.ops.length + t.len + 1))
      (cur := ⟨if first then .if_ else .elsif, none, ls, ij, b.brks 0 ((.plain, none) :: ctx.map Encl.sig) (s.ops.length + t.len + 1)⟩)
      (prev := { cur with lastStart := (s.ops ++ t.code false s.ops.length).length, ifJmps := js, breakJmps := cur.breakJmps ++ b.brks 1 ((.plain, none) :: ctx.map Encl.sig) (s.ops.length + t.len + 1) })
      (stack := grow (fun i => b.brks (i + 2) ((.plain, none) :: ctx.map Encl.sig) (s.ops.length + t.len + 1)) stack)
      (lt := lt) (cl := cl)
      (stop := s.ops.length + t.len + 1 + b.len ((Kind.plain, none) :: ctx.map Encl.sig) + clearLen cl)
      (by cases first <;> simp) rfl (by
      simp only [Blk.code_length, List.map_cons, Encl.sig, plainEncl, List.length_append, TestE.code_length])
    generalize hnx : s.ops.length + t.len + 1 + b.len ((Kind.plain, none) :: ctx.map Encl.sig) + clearLen cl = stop at hc
    have hr2 : Rel ctx (onHead (s.ops ++ t.code false s.ops.length).length (js ++ [stop])
        (grow (fun i => b.brks (i + 1) ((.plain, none) :: ctx.map Encl.sig) (s.ops.length + t.len + 1)) s.blocks)) :=
      (hr.grow _).onHead _ _
    have hlen3 : (s.ops ++ t.code false s.ops.length ++ Op.jz (stop + 1) ::
        (b.code (plainEncl :: ctx) (s.ops.length + t.len + 1) ++ clearCode cl ++ [Op.jmp maxPos])).length = stop + 1 := by
      simp only [Blk.code_length, List.map_cons, Encl.sig, plainEncl, List.length_append, TestE.code_length, clearCode_length,
        List.length_cons, List.length_nil, ← hnx]
      omega
    rw [hb] at hr2
    have h4 : round lim _ (.cclose cl) (c.toks false ++ rest) = some (_, _) :=
      (congrArg (fun n => Option.map (_, ·) (closeBlock _ cl n)) (isElse_chain c rest)).trans (congrArg (Option.map (_, ·)) hc)
    obtain ⟨ls2, ij2, lt2, h5⟩ := Chain.run (lim := lim) c ctx
      ⟨s.ops ++ t.code false s.ops.length ++ Op.jz (stop + 1) ::
        (b.code (plainEncl :: ctx) (s.ops.length + t.len + 1) ++ clearCode cl ++ [Op.jmp maxPos]), _,
          if first then .if_ else .elsif⟩ rest false (js ++ [stop]) _ _ rfl hr2 hf ok4 he
      (fun _ => ⟨by cases first <;> simp, rfl⟩) (by simp)
    refine ⟨ls2, ij2, lt2, h3.trans (.step h4 ?_)⟩
    simp only [hlen3] at h5
    simp only [Chain.code, Chain.len, Chain.brks, Chain.ifJmps, Option.map_some, hb, onHead, grow, List.append_assoc, List.map_cons,
      Encl.sig, plainEncl, ← Nat.add_assoc, hnx, grow_grow, List.cons_append, List.nil_append] at h5 ⊢
    exact h5
end

/-- The compiler accepts every structured script within its limits and emits exactly the code
defined above for it. -/
theorem compile_render {lim : Limits} (b : Blk A T E) (ok : b.Ok lim []) : compile lim b.toks = some (b.code [] 0) := by
  obtain ⟨ls, ij, lt, h⟩ := Blk.run (lim := lim) b [] ⟨[], [.new .root], .root⟩ [] ⟨rfl, rfl⟩ (by intro e he; cases he) ok rfl
  rw [List.append_nil] at h
  exact h.rounds rfl rfl _ (Nat.le_refl _)

/-- `if a { while e { if not anyof(a, b) { break; } } } else { keep; }`. -/
example : compile (A := Unit) (T := Nat) (E := Unit) ⟨15, 15, 3⟩
    [.kif, .leaf 0, .copen, .kwhile (), .copen, .kif, .knot, .kanyof, .popen, .leaf 1, .comma, .leaf 2, .pclose, .copen,
      .kbreak none, .cclose none, .cclose none, .cclose none, .kelse, .copen, .act [()], .cclose none] =
    some [.test 0 false, .jz 10, .loop () 9, .test 1 true, .jz 6, .test 2 true, .jz 8, .jmp 9, .jmp 2, .jmp 11, .plain ()] :=
  compile_render (.cons (.cond (.els (.atom (.leaf 0)) (.cons (.loop () (.cons (.cond (.one (.not (.any (.cons (.atom (.leaf 1))
    (.one (.atom (.leaf 2)))))) (.cons (.brk none) .nil) none)) .nil) none) .nil) none (.cons (.act [()]) .nil) none)) .nil)
    (by simp [Blk.Ok, Stmt.Ok, Chain.Ok, TestE.depth, Tests.depth, innermost])

end Sieve.Compile
