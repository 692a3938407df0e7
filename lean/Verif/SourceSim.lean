import Verif.SourceReloc

/-!
# Where in the code a running script is

`At code p K`: executing `code` from position `p` does `K`.
-/

namespace Sieve.Source

open Sieve.Vm Sieve.Compile

variable {W V P A T E : Type} {cfg : Cfg W V P}

/-- `l` is found in `code` at position `p`. -/
def Has (code : List (Op A T E)) : Nat → List (Op A T E) → Prop
  | _, [] => True
  | p, x :: l => code[p]? = some x ∧ Has code (p + 1) l

theorem has_append {code : List (Op A T E)} : ∀ {l p} {l' : List (Op A T E)},
    Has code p (l ++ l') ↔ Has code p l ∧ Has code (p + l.length) l'
  | [], p, l' => by simp [Has]
  | x :: l, p, l' => by
    simp only [List.cons_append, Has, has_append (l := l), List.length_cons]
    rw [show p + (l.length + 1) = p + 1 + l.length by omega, and_assoc]

theorem has_self (code : List (Op A T E)) : ∀ (l pre : List (Op A T E)), code = pre ++ l → Has code pre.length l
  | [], _, _ => trivial
  | x :: l, pre, h => by
    refine ⟨by rw [h]; simp, ?_⟩
    have := has_self code l (pre ++ [x]) (by simp [h])
    simpa using this

mutual
/-- In this script the innermost loop around a `continue` is a `while` loop; `ks` are the enclosing
blocks. -/
def _root_.Sieve.Compile.Stmt.Conts (ks : List Sig) : Stmt A T E → Prop
  | .cond c => c.Conts ks
  | .loop _ b _ => b.Conts ((.loop, none) :: ks)
  | .parts l b _ => b.Conts ((.parts, l) :: ks)
  | .cont => ∃ i, innermost ks = some (i, false)
  | _ => True
def _root_.Sieve.Compile.Blk.Conts (ks : List Sig) : Blk A T E → Prop
  | .nil => True
  | .cons s b => s.Conts ks ∧ b.Conts ks
def _root_.Sieve.Compile.Chain.Conts (ks : List Sig) : Chain A T E → Prop
  | .one _ b _ => b.Conts ((.plain, none) :: ks)
  | .els _ b _ e _ => b.Conts ((.plain, none) :: ks) ∧ e.Conts ((.plain, none) :: ks)
  | .elif _ b _ c => b.Conts ((.plain, none) :: ks) ∧ c.Conts ks
end

/-- Within the compiler's limits, and with unproblematic `continue`s. -/
def FineB (lim : Limits) (ctx : List Encl) (b : Blk A T E) : Prop :=
  b.Ok lim (ctx.map Encl.sig) ∧ b.Conts (ctx.map Encl.sig)

def FineC (lim : Limits) (ctx : List Encl) (c : Chain A T E) : Prop :=
  c.Ok lim (ctx.map Encl.sig) ∧ c.Conts (ctx.map Encl.sig)

def FineS (lim : Limits) (ctx : List Encl) (s : Stmt A T E) : Prop :=
  s.Ok lim (ctx.map Encl.sig) ∧ s.Conts (ctx.map Encl.sig)

/-- `r` is reached from `p`. -/
def Goes (code : List (Op A T E)) (p r : Nat) : Prop := r = p ∨ code[p]? = some (.jmp r)

/-- `K` is what follows a block with the enclosing blocks `ctx` whose code ends at `q`. -/
inductive Bound (lim : Limits) (code : List (Op A T E)) : List Encl → Nat → Todo A T E → Prop where
  | root : Bound lim code [] code.length []
  | plain {ctx q cl r b K} : Has code q (clearCode cl) → Goes code (q + clearLen cl) r →
      FineB lim ctx b → Has code r (b.code ctx r) → Bound lim code ctx (r + b.len (ctx.map Encl.sig)) K →
      Bound lim code (plainEncl :: ctx) q (.clear cl :: .blk b :: K)
  | loop {ctx q n e b cl b' K stop} : FineS lim ctx (.loop e b cl) → Has code n ((Stmt.loop e b cl).code ctx n) →
      stop = n + (Stmt.loop e b cl).len (ctx.map Encl.sig) →
      q = n + 1 + b.len ((.loop, none) :: ctx.map Encl.sig) →
      FineB lim ctx b' → Has code stop (b'.code ctx stop) → Bound lim code ctx (stop + b'.len (ctx.map Encl.sig)) K →
      Bound lim code (⟨.loop, none, n, stop⟩ :: ctx) q (.clear cl :: .loop e b cl :: .blk b' :: K)
  | parts {ctx q n l b cl b' K stop} : FineS lim ctx (.parts l b cl) → Has code n ((Stmt.parts l b cl).code ctx n) →
      stop = n + (Stmt.parts l b cl).len (ctx.map Encl.sig) →
      q = n + 2 + b.len ((.parts, l) :: ctx.map Encl.sig) →
      FineB lim ctx b' → Has code stop (b'.code ctx stop) → Bound lim code ctx (stop + b'.len (ctx.map Encl.sig)) K →
      Bound lim code (⟨.parts, l, n + 1, stop⟩ :: ctx) q (.clear cl :: .parts l b cl :: .blk b' :: K)

/-- The rest of a block and what follows. -/
structure Rest (lim : Limits) (code : List (Op A T E)) (ctx : List Encl) (p : Nat) (b : Blk A T E) (K : Todo A T E) :
    Prop where
  fine : FineB lim ctx b
  has : Has code p (b.code ctx p)
  bound : Bound lim code ctx (p + b.len (ctx.map Encl.sig)) K

/-- At position `p` a value has been found (negated if `neg`), and `K` is to be done with it. -/
inductive Val (lim : Limits) (code : List (Op A T E)) : Nat → Bool → Todo A T E → Prop where
  | neg {p n K} : Val lim code p (!n) K → Val lim code p n (.neg :: K)
  | more {p tgt n isAll l K} : code[p]? = some (cjump (isAll ^^ n) tgt) →
      Has code (p + 1) (l.code (isAll ^^ n) n (p + 1) tgt) → tgt = p + 1 + l.len → Val lim code tgt n K →
      Val lim code p n (.more isAll l :: K)
  | branch {p p0 fin ctx b K} {c : Chain A T E} : Has code p0 (c.code ctx p0 fin) → fin = p0 + c.len (ctx.map Encl.sig) →
      p = p0 + (Chain.test c).len → FineC lim ctx c → Rest lim code ctx fin b K →
      Val lim code p false (.branch c :: .blk b :: K)
  | vac {p ctx a b K} : code[p]? = some (.jz (p + 2)) → code[p + 1]? = some (.plain a) →
      Rest lim code ctx (p + 2) b K → Val lim code p false (.vac a :: .blk b :: K)

/-- Executing `code` from position `p` does `K`. -/
inductive At (lim : Limits) (code : List (Op A T E)) : Nat → Todo A T E → Prop where
  | done : At lim code code.length []
  | ret {p} : code[p]? = some .ret → At lim code p []
  | jump {p q K} : code[p]? = some (.jmp q) → At lim code q K → At lim code p K
  | blk {ctx p b K} : Rest lim code ctx p b K → At lim code p (.blk b :: K)
  | ops {p is K} : Has code p (is.map .plain) → At lim code (p + is.length) K → At lim code p (.ops is :: K)
  | ev {p e K} : code[p]? = some (.eval e false) → At lim code (p + 1) K → At lim code p (.ev e :: K)
  | clear {p cl K} : Has code p (clearCode cl) → At lim code (p + clearLen cl) K → At lim code p (.clear cl :: K)
  | loop {ctx p e b cl b' K} : FineS lim ctx (.loop e b cl) → Has code p ((Stmt.loop e b cl).code ctx p) →
      Rest lim code ctx (p + (Stmt.loop e b cl).len (ctx.map Encl.sig)) b' K →
      At lim code p (.loop e b cl :: .blk b' :: K)
  | parts {ctx n l b cl b' K} : FineS lim ctx (.parts l b cl) → Has code n ((Stmt.parts l b cl).code ctx n) →
      Rest lim code ctx (n + (Stmt.parts l b cl).len (ctx.map Encl.sig)) b' K →
      At lim code (n + 1) (.parts l b cl :: .blk b' :: K)
  | test {p n e K} : Has code p (TestE.code n p e) → Val lim code (p + e.len) n K → At lim code p (.test e :: K)
  | tests {p n isAll l K} : Has code p (Tests.code (isAll ^^ n) n p (p + l.len) l) → Val lim code (p + l.len) n K →
      At lim code p (.tests isAll l :: K)

variable {lim : Limits} {code : List (Op A T E)}

theorem at_goes {p r K} (h : Goes code p r) (ha : At lim code r K) : At lim code p K := by
  rcases h with rfl | h
  · exact ha
  · exact .jump h ha

theorem bound_at {ctx q K} (h : Bound lim code ctx q K) : At lim code q K := by
  cases h with
  | root => exact .done
  | plain h1 h2 h3 h4 h5 => exact .clear h1 (at_goes h2 (.blk ⟨h3, h4, h5⟩))
  | @loop ctx q n e b cl b' K stop h1 h2 h3 h4 h5 h6 h7 =>
    subst h3
    have hh := h2
    simp only [Stmt.code, Has, has_append, List.length_append, clearCode_length, Blk.code_length, List.map_cons,
      Encl.sig] at hh
    obtain ⟨_, ⟨_, h9⟩, h10, _⟩ := hh
    subst h4
    refine .clear h9 (.jump ?_ (.loop h1 h2 ⟨h5, h6, h7⟩))
    rw [← h10]; congr 1; omega
  | @parts ctx q n l b cl b' K stop h1 h2 h3 h4 h5 h6 h7 =>
    subst h3
    have hh := h2
    simp only [Stmt.code, Has, has_append, List.length_append, clearCode_length, Blk.code_length, List.map_cons,
      Encl.sig] at hh
    obtain ⟨_, _, ⟨_, h9⟩, h10, _⟩ := hh
    subst h4
    refine .clear h9 (.jump ?_ (.parts h1 h2 ⟨h5, h6, h7⟩))
    rw [← h10]; congr 1; omega

/-! ## `break`, `continue` and `return` -/

theorem popParts_leave (n : Nat) (c : Ctx W V P) : popParts (n + 1) c = popParts n (leaveParts c) := by
  cases h : c.partStack with
  | nil =>
    rw [show leaveParts c = c by simp [leaveParts, h], popParts, h]
    cases n with
    | zero => rfl
    | succ n => rw [popParts, h]
  | cons x l => simp only [popParts, leaveParts, h]

theorem popParts_one (c : Ctx W V P) : popParts 1 c = leaveParts c := by
  rw [popParts_leave, popParts]

theorem break_bound {ctx q K} (h : Bound lim code ctx q K) : ∀ {i f}, innermost (ctx.map Encl.sig) = some (i, f) →
    ∃ e K', ctx[i]? = some e ∧ At lim code e.stop K' ∧
      ∀ c : Ctx W V P, breakOut K c = (K', if f then leaveParts c else c) := by
  induction h with
  | root => intro i f h; simp [innermost] at h
  | plain h1 h2 h3 h4 h5 ih =>
    intro i f h
    simp [innermost, Encl.sig, plainEncl] at h
    obtain ⟨j, h, rfl⟩ := h
    obtain ⟨e, K', h6, h7, h8⟩ := ih h
    exact ⟨e, K', by simpa using h6, h7, fun c => by simp only [breakOut, h8]⟩
  | loop h1 h2 h3 h4 h5 h6 h7 ih =>
    intro i f h
    simp [innermost, Encl.sig] at h
    obtain ⟨rfl, rfl⟩ := h
    exact ⟨_, _, rfl, .blk ⟨h5, h6, h7⟩, fun c => by simp [breakOut]⟩
  | parts h1 h2 h3 h4 h5 h6 h7 ih =>
    intro i f h
    simp [innermost, Encl.sig] at h
    obtain ⟨rfl, rfl⟩ := h
    exact ⟨_, _, rfl, .blk ⟨h5, h6, h7⟩, fun c => by simp [breakOut]⟩

theorem cont_bound {ctx q K} (h : Bound lim code ctx q K) : ∀ {i}, innermost (ctx.map Encl.sig) = some (i, false) →
    ∃ e K', innerWhile (ctx.map Encl.sig) = some i ∧ ctx[i]? = some e ∧ At lim code e.start K' ∧
      ∀ c : Ctx W V P, continueTo K c = (K', c) := by
  induction h with
  | root => intro i h; simp [innermost] at h
  | plain h1 h2 h3 h4 h5 ih =>
    intro i h
    simp [innermost, Encl.sig, plainEncl] at h
    obtain ⟨j, h, rfl⟩ := h
    obtain ⟨e, K', h5, h6, h7, h8⟩ := ih h
    exact ⟨e, K', by simp [innerWhile, Encl.sig, plainEncl]; exact h5, by simpa using h6, h7,
      fun c => by simp only [continueTo, h8]⟩
  | loop h1 h2 h3 h4 h5 h6 h7 ih =>
    intro i h
    simp [innermost, Encl.sig] at h
    subst h
    subst h3
    exact ⟨_, _, by simp [innerWhile, Encl.sig], rfl, .loop h1 h2 ⟨h5, h6, h7⟩, fun c => by simp [continueTo]⟩
  | parts h1 h2 h3 h4 h5 h6 h7 ih =>
    intro i h
    simp [innermost, Encl.sig] at h

theorem breakTo_bound {l : String} {ctx q K} (h : Bound lim code ctx q K) : ∀ {i}, labelled l (ctx.map Encl.sig) = some i →
    ∃ e K', ctx[i]? = some e ∧ At lim code e.stop K' ∧
      ∀ c : Ctx W V P, breakTo l K c = (K', popParts (partsCount ((ctx.map Encl.sig).take (i + 1))) c) := by
  induction h with
  | root => intro i h; simp [labelled] at h
  | plain h1 h2 h3 h4 h5 ih =>
    intro i h
    simp [labelled, Encl.sig, plainEncl] at h
    obtain ⟨j, h, rfl⟩ := h
    obtain ⟨e, K', h6, h7, h8⟩ := ih h
    refine ⟨e, K', by simpa using h6, h7, fun c => ?_⟩
    simp only [breakTo, h8, List.map_cons, List.take_succ_cons]
    simp [partsCount, Encl.sig, plainEncl]
  | loop h1 h2 h3 h4 h5 h6 h7 ih =>
    intro i h
    simp [labelled, Encl.sig] at h
    obtain ⟨j, h, rfl⟩ := h
    obtain ⟨e, K', h6, h7, h8⟩ := ih h
    refine ⟨e, K', by simpa using h6, h7, fun c => ?_⟩
    simp only [breakTo, h8, List.map_cons, List.take_succ_cons]
    simp [partsCount, Encl.sig]
  | @parts ctx q n l' b cl b' K stop h1 h2 h3 h4 h5 h6 h7 ih =>
    intro i h
    by_cases hl : l' = some l
    · simp [labelled, Encl.sig, hl] at h
      subst h
      refine ⟨_, _, rfl, .blk ⟨h5, h6, h7⟩, fun c => ?_⟩
      simp only [breakTo, hl, List.map_cons, List.take_succ_cons]
      simp only [partsCount, Encl.sig, popParts_leave]
      simp [partsCount, popParts]
    · simp [labelled, Encl.sig, hl] at h
      obtain ⟨j, h, rfl⟩ := h
      obtain ⟨e, K', h6, h7, h8⟩ := ih h
      refine ⟨e, K', by simpa using h6, h7, fun c => ?_⟩
      simp only [breakTo, hl, if_false, h8, List.map_cons, List.take_succ_cons]
      simp only [partsCount, Encl.sig, popParts_leave]

theorem leaveAll_bound {ctx q K} (h : Bound lim code ctx q K) : ∀ c : Ctx W V P,
    leaveAll K c = popParts (partsCount (ctx.map Encl.sig)) c := by
  induction h with
  | root => intro c; rfl
  | plain h1 h2 h3 h4 h5 ih => intro c; simp only [leaveAll, ih]; rfl
  | loop h1 h2 h3 h4 h5 h6 h7 ih => intro c; simp only [leaveAll, ih]; rfl
  | parts h1 h2 h3 h4 h5 h6 h7 ih =>
    intro c; simp only [leaveAll, ih, List.map_cons, Encl.sig, partsCount, popParts_leave]

/-! ## Silent steps -/

/-- Any number of steps. -/
inductive SSteps (I : Interp cfg A T E) (src : Script W V P → Blk A T E) : Conf W V P A T E → Conf W V P A T E → Prop where
  | refl {s} : SSteps I src s s
  | head {s s' s''} : sstep I src s = .cont s' → SSteps I src s' s'' → SSteps I src s s''

variable {I : Interp cfg A T E} {src : Script W V P → Blk A T E}

theorem SSteps.trans {s s' s'' : Conf W V P A T E} (h : SSteps I src s s') (h' : SSteps I src s' s'') :
    SSteps I src s s'' := by
  induction h with
  | refl => exact h'
  | head h _ ih => exact .head h (ih h')

/-- Steps that only rearrange what is to be done. -/
def Silent (I : Interp cfg A T E) (src : Script W V P → Blk A T E) (K K' : Todo A T E) : Prop :=
  ∀ ks c, SSteps I src ⟨K :: ks, c⟩ ⟨K' :: ks, c⟩

theorem Silent.refl (K : Todo A T E) : Silent I src K K := fun _ _ => .refl

theorem Silent.step {K K' K'' : Todo A T E} (h : ∀ ks c, sstep I src ⟨K :: ks, c⟩ = .cont ⟨K' :: ks, c⟩)
    (h' : Silent I src K' K'') : Silent I src K K'' := fun ks c => .head (h ks c) (h' ks c)

/-- What is to be done next is what the instruction at position `p` does. -/
inductive Ready (I : Interp cfg A T E) (src : Script W V P → Blk A T E) (lim : Limits) (code : List (Op A T E)) :
    Nat → Todo A T E → Prop where
  | done : Ready I src lim code code.length []
  | ret {p} : code[p]? = some .ret → Ready I src lim code p []
  | jump {p q K} : code[p]? = some (.jmp q) → At lim code q K → Ready I src lim code p K
  | op {p a is K} : code[p]? = some (.plain a) → At lim code (p + 1) (.ops is :: K) →
      At lim code p (.ops (a :: is) :: K) → Ready I src lim code p (.ops (a :: is) :: K)
  | ev {p e K} : code[p]? = some (.eval e false) → At lim code (p + 1) K → Ready I src lim code p (.ev e :: K)
  | loop {p stop e b cl K} : code[p]? = some (.loop e stop) →
      At lim code (p + 1) (.blk b :: .clear cl :: .loop e b cl :: K) → At lim code stop K →
      At lim code p (.loop e b cl :: K) → Ready I src lim code p (.loop e b cl :: K)
  | push {p l b cl b' K} : code[p]? = some .fepPush → At lim code (p + 1) (.parts l b cl :: .blk b' :: K) →
      Ready I src lim code p (.blk (.cons (.parts l b cl) b') :: K)
  | parts {p stop l b cl K} : code[p]? = some (.fep stop) →
      At lim code (p + 1) (.blk b :: .clear cl :: .parts l b cl :: K) → At lim code stop K →
      Ready I src lim code p (.parts l b cl :: K)
  | pop {p n K K'} : code[p]? = some (.fepPop n) → At lim code (p + 1) K' →
      (∀ ks c, sstep I src ⟨K :: ks, c⟩ = .cont ⟨K' :: ks, popParts n c⟩) → Ready I src lim code p K
  | atom {p n a K} : code[p]? = some (a.op n) → Val lim code (p + 1) n K → Ready I src lim code p (.test (.atom a) :: K)

mutual
theorem ready_test {p n K} : ∀ (e : TestE A T E), Has code p (e.code n p) → Val lim code (p + e.len) n K →
    ∃ K', Ready I src lim code p K' ∧ Silent I src (.test e :: K) K'
  | .atom a, h, hv => ⟨_, .atom (n := n) h.1 hv, .refl _⟩
  | .not e, h, hv => by
    rw [TestE.code] at h
    obtain ⟨K', h1, h2⟩ := ready_test (n := !n) (K := .neg :: K) e h (.neg (by simpa [TestE.len] using hv))
    exact ⟨K', h1, .step (fun _ _ => rfl) h2⟩
  | .any l, h, hv => by
    rw [TestE.code] at h
    obtain ⟨K', h1, h2⟩ := ready_tests (n := n) (K := K) (isAll := false) l (by simpa using h) hv
    exact ⟨K', h1, .step (fun _ _ => rfl) h2⟩
  | .all l, h, hv => by
    rw [TestE.code] at h
    obtain ⟨K', h1, h2⟩ := ready_tests (n := n) (K := K) (isAll := true) l (by simpa using h) hv
    exact ⟨K', h1, .step (fun _ _ => rfl) h2⟩
theorem ready_tests {p n isAll K} : ∀ (l : Tests A T E), Has code p (l.code (isAll ^^ n) n p (p + l.len)) →
    Val lim code (p + l.len) n K → ∃ K', Ready I src lim code p K' ∧ Silent I src (.tests isAll l :: K) K'
  | .one e, h, hv => by
    obtain ⟨K', h1, h2⟩ := ready_test (n := n) (K := K) e h hv
    exact ⟨K', h1, .step (fun _ _ => rfl) h2⟩
  | .cons e l, h, hv => by
    rw [Tests.code, has_append, TestE.code_length] at h
    obtain ⟨h3, h4, h5⟩ := h
    rw [Tests.len] at hv h4 h5
    obtain ⟨K', h1, h2⟩ := ready_test (n := n) (K := .more isAll l :: K) e h3
      (.more h4 h5 (by omega) hv)
    exact ⟨K', h1, .step (fun _ _ => rfl) h2⟩
end

/-- The test of a chain is the first thing in its code. -/
theorem chain_test {ctx p fin} (c : Chain A T E) (h : Has code p (c.code ctx p fin)) :
    Has code p ((Chain.test c).code false p) := by
  cases c <;> (simp only [Chain.code, has_append] at h; exact h.1)

theorem at_cond {ctx p b K} {c : Chain A T E} (hf : FineC lim ctx c)
    (h : Has code p (c.code ctx p (p + c.len (ctx.map Encl.sig))))
    (hr : Rest lim code ctx (p + c.len (ctx.map Encl.sig)) b K) :
    At lim code p (.test (Chain.test c) :: .branch c :: .blk b :: K) :=
  .test (chain_test c h) (.branch h rfl rfl hf hr)

theorem ready_blk {ctx K} : ∀ (b : Blk A T E) (p), Rest lim code ctx p b K →
    (∃ K', Ready I src lim code (p + b.len (ctx.map Encl.sig)) K' ∧ Silent I src K K') →
      ∃ K', Ready I src lim code p K' ∧ Silent I src (.blk b :: K) K'
  | .nil, p, _, hb => by
    obtain ⟨K', h1, h2⟩ := hb
    exact ⟨K', h1, .step (fun _ _ => rfl) h2⟩
  | .cons s b, p, ⟨⟨hf1, hf2⟩, h, hbd⟩, hb => by
    rw [Blk.code, has_append, Stmt.code_length] at h
    rw [Blk.len, ← Nat.add_assoc] at hbd
    obtain ⟨hs, hr⟩ := h
    have hR : Rest lim code ctx (p + s.len (ctx.map Encl.sig)) b K := ⟨⟨hf1.2, hf2.2⟩, hr, hbd⟩
    have hfs : FineS lim ctx s := ⟨hf1.1, hf2.1⟩
    cases s with
    | act is =>
      cases is with
      | nil =>
        obtain ⟨K', h1, h2⟩ := ready_blk b p (by simpa [Stmt.len] using hR) (by simpa [Blk.len, Stmt.len] using hb)
        exact ⟨K', h1, .step (fun _ _ => rfl) (.step (fun _ _ => rfl) h2)⟩
      | cons a is =>
        rw [Stmt.code, List.map_cons] at hs
        simp only [Stmt.len, List.length_cons] at hR
        refine ⟨_, .op hs.1 (is := is) (K := .blk b :: K) (.ops hs.2 (.blk (ctx := ctx) ?_)) (.ops hs (.blk hR)),
          .step (fun _ _ => rfl) (.refl _)⟩
        rw [show p + 1 + is.length = p + (is.length + 1) by omega]; exact hR
    | eval e => exact ⟨_, .ev hs.1 (.blk hR), .step (fun _ _ => rfl) (.refl _)⟩
    | vac t a =>
      obtain ⟨h1, h2, h3, _⟩ := hs
      exact ⟨_, .atom (a := .leaf t) (n := false) h1 (.vac h2 h3 hR), .step (fun _ _ => rfl) (.refl _)⟩
    | cond c =>
      obtain ⟨K', h1, h2⟩ := ready_test (I := I) (src := src) (lim := lim) (n := false) (K := .branch c :: .blk b :: K)
        (Chain.test c) (chain_test c hs) (.branch hs rfl rfl hfs hR)
      exact ⟨K', h1, .step (fun _ _ => rfl) h2⟩
    | loop e b1 cl =>
      have hh := hs
      simp only [Stmt.code, Has, has_append] at hh
      obtain ⟨h0, ⟨h1, h2⟩, _⟩ := hh
      refine ⟨_, .loop h0 (.blk (ctx := ⟨.loop, none, p, _⟩ :: ctx) ⟨?_, h1, .loop hfs hs rfl rfl hR.fine hR.has hR.bound⟩) (.blk hR)
        (.loop hfs hs hR), .step (fun _ _ => rfl) (.refl _)⟩
      exact ⟨hfs.1.2, hfs.2⟩
    | parts l b1 cl => exact ⟨_, .push hs.1 (.parts hfs hs hR), .refl _⟩
    | brk l =>
      cases l with
      | none =>
        obtain ⟨⟨i, f⟩, h1⟩ := Option.isSome_iff_exists.mp hfs.1
        obtain ⟨e, K', h2, h3, h4⟩ := break_bound (W := W) (V := V) (P := P) hbd h1
        cases f with
        | true =>
          simp only [Stmt.code, h1, jumpOut, h2, Has] at hs
          refine ⟨_, .pop hs.1 (.jump hs.2.1 h3) (fun ks c => ?_), .refl _⟩
          simp [sstep, breakOut, h4, popParts_one]
        | false =>
          simp only [Stmt.code, h1, jumpOut, h2, Has] at hs
          refine ⟨_, .jump hs.1 h3, .step (fun ks c => ?_) (.refl _)⟩
          simp [sstep, breakOut, h4]
      | some l =>
        obtain ⟨i, h1⟩ := Option.isSome_iff_exists.mp hfs.1
        obtain ⟨e, K', h2, h3, h4⟩ := breakTo_bound (W := W) (V := V) (P := P) hbd h1
        simp only [Stmt.code, h1, jumpOut, h2, Has] at hs
        refine ⟨_, .pop hs.1 (.jump hs.2.1 h3) (fun ks c => ?_), .refl _⟩
        simp [sstep, breakTo, h4]
    | cont =>
      obtain ⟨i, h1⟩ := hfs.2
      obtain ⟨e, K', h5, h2, h3, h4⟩ := cont_bound (W := W) (V := V) (P := P) hbd h1
      simp only [Stmt.code, h5, Option.bind_some, h2, Has] at hs
      refine ⟨_, .jump hs.1 h3, .step (fun ks c => ?_) (.refl _)⟩
      simp [sstep, continueTo, h4]
    | ret =>
      have h4 := leaveAll_bound (W := W) (V := V) (P := P) hbd
      by_cases h0 : partsCount (ctx.map Encl.sig) = 0
      · simp only [Stmt.code, h0, if_true, List.nil_append, Has] at hs
        refine ⟨_, .ret hs.1, .step (fun ks c => ?_) (.refl _)⟩
        simp [sstep, leaveAll, h4, h0, popParts]
      · simp only [Stmt.code, h0, if_false, List.singleton_append, Has] at hs
        refine ⟨_, .pop hs.1 (.ret hs.2.1) (fun ks c => ?_), .refl _⟩
        simp [sstep, leaveAll, h4]
termination_by b => sizeOf b

theorem ready_clear {p cl K} (h : Has code p (clearCode cl)) (ha : At lim code (p + clearLen cl) K)
    (hr : cl = none → ∃ K', Ready I src lim code p K' ∧ Silent I src K K') :
    ∃ K', Ready I src lim code p K' ∧ Silent I src (.clear cl :: K) K' := by
  cases cl with
  | none =>
    obtain ⟨K', h1, h2⟩ := hr rfl
    exact ⟨K', h1, .step (fun _ _ => rfl) h2⟩
  | some a =>
    exact ⟨_, .op (is := []) h.1 (.ops trivial ha) (.ops h ha), .step (fun _ _ => rfl) (.refl _)⟩

theorem ready_bound {ctx q K} (h : Bound lim code ctx q K) :
    ∃ K', Ready I src lim code q K' ∧ Silent I src K K' := by
  have hfull := bound_at h
  induction h with
  | root => exact ⟨_, .done, .refl _⟩
  | @plain ctx q cl r b K h1 h2 h3 h4 h5 ih =>
    have hr : Rest lim code ctx r b K := ⟨h3, h4, h5⟩
    refine ready_clear h1 (at_goes h2 (.blk hr)) ?_
    rintro rfl
    rcases h2 with rfl | h2
    · exact ready_blk b _ hr (ih (bound_at h5))
    · exact ⟨_, .jump h2 (.blk hr), .refl _⟩
  | @loop ctx q n e b cl b' K stop h1 h2 h3 h4 h5 h6 h7 ih =>
    subst h3 h4
    have hh := h2
    simp only [Stmt.code, Has, has_append, List.length_append, clearCode_length, Blk.code_length, List.map_cons,
      Encl.sig] at hh
    obtain ⟨_, ⟨_, h9⟩, h10, _⟩ := hh
    rw [← Nat.add_assoc] at h10
    have ha : At lim code n (.loop e b cl :: .blk b' :: K) := .loop h1 h2 ⟨h5, h6, h7⟩
    refine ready_clear h9 (.jump h10 ha) ?_
    rintro rfl
    exact ⟨_, .jump h10 ha, .refl _⟩
  | @parts ctx q n l b cl b' K stop h1 h2 h3 h4 h5 h6 h7 ih =>
    subst h3 h4
    have hh := h2
    simp only [Stmt.code, Has, has_append, List.length_append, clearCode_length, Blk.code_length, List.map_cons,
      Encl.sig] at hh
    obtain ⟨_, _, ⟨_, h9⟩, h10, _⟩ := hh
    rw [← Nat.add_assoc] at h10
    have ha : At lim code (n + 1) (.parts l b cl :: .blk b' :: K) := .parts h1 h2 ⟨h5, h6, h7⟩
    refine ready_clear h9 (.jump h10 ha) ?_
    rintro rfl
    exact ⟨_, .jump h10 ha, .refl _⟩

theorem at_ready {p K} (h : At lim code p K) : ∃ K', Ready I src lim code p K' ∧ Silent I src K K' := by
  induction h with
  | done => exact ⟨_, .done, .refl _⟩
  | ret h => exact ⟨_, .ret h, .refl _⟩
  | jump h ha _ => exact ⟨_, .jump h ha, .refl _⟩
  | blk h => exact ready_blk _ _ h (ready_bound h.bound)
  | @ops p is K h ha ih =>
    cases is with
    | nil =>
      obtain ⟨K', h1, h2⟩ := ih
      exact ⟨K', h1, .step (fun _ _ => rfl) h2⟩
    | cons a is =>
      rw [List.map_cons] at h
      refine ⟨_, .op h.1 (.ops h.2 ?_) (.ops h ha), .refl _⟩
      rw [List.length_cons] at ha
      rw [show p + 1 + is.length = p + (is.length + 1) by omega]
      exact ha
  | ev h ha _ => exact ⟨_, .ev h ha, .refl _⟩
  | clear h ha ih => exact ready_clear h ha (by rintro rfl; exact ih)
  | @loop ctx p e b cl b' K h1 h2 h3 =>
    have hh := h2
    simp only [Stmt.code, Has, has_append] at hh
    obtain ⟨h0, ⟨h4, _⟩, _⟩ := hh
    exact ⟨_, .loop h0 (.blk (ctx := ⟨.loop, none, p, _⟩ :: ctx) ⟨⟨h1.1.2, h1.2⟩, h4,
      .loop h1 h2 rfl rfl h3.fine h3.has h3.bound⟩) (.blk h3) (.loop h1 h2 h3), .refl _⟩
  | @parts ctx n l b cl b' K h1 h2 h3 =>
    have hh := h2
    simp only [Stmt.code, Has, has_append] at hh
    obtain ⟨_, h0, ⟨h4, _⟩, _⟩ := hh
    exact ⟨_, .parts h0 (.blk (ctx := ⟨.parts, l, n + 1, _⟩ :: ctx) ⟨⟨h1.1.2.2.2, h1.2⟩, h4,
      .parts h1 h2 rfl rfl h3.fine h3.has h3.bound⟩) (.blk h3), .refl _⟩
  | test h hv => exact ready_test _ h hv
  | tests h hv => exact ready_tests _ h hv

end Sieve.Source
