import Verif.VarsModel
import Verif.ScopeModel

/-!
# The slots of the variables

`VarsModel` takes a variable for its place in a list of names, everywhere in the script.  The compiler's scopes (`ScopeModel`) do the same
if every variable is set for the first time outside of all blocks, and used after that: each reference becomes the slot in the list, there
are as many slots as names, and no block ends with a `Clear`.  The commands that set variables are `set` and, with the name of one, those
for flags; `hasflag` looks variables up.
-/

namespace Sieve.Vars

open Sieve.Args Sieve.Compile

variable {W F N : Type} [DecidableEq F]

/-- The characters of a name. -/
def name (n : List UInt8) : Scope.Name := n.map fun b => Char.ofNat b.toNat

/-! ## References -/

/-- The variables in a string. -/
def Host.refs (H : Host W F N) : Val F → List Name
  | .var s => ((Str.tokenize H.strs true s).getD []).filterMap fun
    | .var n => some n
    | _ => none
  | _ => []

def Host.argRefs (H : Host W F N) : Arg F → List Name
  | .val v => H.refs v
  | .vals vs => vs.flatMap H.refs
  | .pair a b => H.refs a ++ H.refs b
  | _ => []

def Host.gotRefs (H : Host W F N) (g : Got F) : List Name := g.pos.flatMap H.argRefs ++ g.tags.flatMap fun p => H.argRefs p.2

/-- The variables that a test looks up by their names: those of `hasflag`, `src/compiler/grammar/tests/test_hasflag.rs:90-109` (compiler). -/
def lookups : Script.Node F → List Name
  | .test .HasFlag g =>
    match g.pos with
    | [.vals vs, .vals _] => vs.filterMap fun
      | .text n => some (lower n)
      | _ => none
    | _ => []
  | _ => []

mutual
def Host.testRefs (H : Host W F N) : TestE (Script.Node F) (Script.Node F) (List UInt8) → List Name
  | .atom (.leaf n) => lookups n ++ H.gotRefs (Core.got n)
  | .atom _ => []
  | .not e => H.testRefs e
  | .any l => H.testsRefs l
  | .all l => H.testsRefs l
def Host.testsRefs (H : Host W F N) : Tests (Script.Node F) (Script.Node F) (List UInt8) → List Name
  | .one e => H.testRefs e
  | .cons e l => H.testRefs e ++ H.testsRefs l
end

/-! ## The script for `ScopeModel` -/

section
variable {R K : Type} (H : Host W F N) (ref : Name → R) (k : K)

def uses (l : List Name) : List (Scope.Use R) := l.map fun n => ⟨ref n, true⟩

/-- The commands that register a variable: `src/compiler/grammar/actions/action_set.rs:118-131`, `src/compiler/grammar/actions/action_flags.rs:57-70` (compiler). -/
def setters : List Word := [.Set, .SetFlag, .AddFlag, .RemoveFlag]

/-- The variable that a command registers, and whether `:local` is given. -/
def registers : Script.Node F → Option (Name × Bool)
  | .cmd c g =>
    match g.pos with
    | .text m :: _ => if c ∈ setters then some (m, g.tags.any fun p => p.1 == .Local) else none
    | _ => none
  | _ => none

/-- A command: the variable that it sets, and those that it reads. -/
def cmdCode (n : Script.Node F) : Scope.Code Unit Unit R K :=
  match registers n with
  | some (m, l) => .set (ref m) l (uses ref (H.gotRefs (Core.got n))) fun _ _ => ()
  | none => .act (uses ref (H.gotRefs (Core.got n))) fun _ _ => ()

def cmdsCode : List (Script.Node F) → Scope.Code Unit Unit R K
  | [] => .skip
  | n :: l => .seq (cmdCode H ref n) (cmdsCode l)

mutual
def stmtCode : Stmt (Script.Node F) (Script.Node F) (List UInt8) → Scope.Code Unit Unit R K
  | .act l => cmdsCode H ref l
  | .cond c => chainCode c
  | _ => .skip
def blkCode : Blk (Script.Node F) (Script.Node F) (List UInt8) → Scope.Code Unit Unit R K
  | .nil => .skip
  | .cons c l => .seq (stmtCode c) (blkCode l)
def chainCode : Chain (Script.Node F) (Script.Node F) (List UInt8) → Scope.Code Unit Unit R K
  | .one e b _ => .ite (uses ref (H.testRefs e)) (fun _ _ => ((), true)) (blkCode b) k .skip k
  | .els e b _ c _ => .ite (uses ref (H.testRefs e)) (fun _ _ => ((), true)) (blkCode b) k (blkCode c) k
  | .elif e b _ c => .ite (uses ref (H.testRefs e)) (fun _ _ => ((), true)) (blkCode b) k (chainCode c) k
end
end

/-- The script as written. -/
def written (H : Host W F N) : Whole.Prog F → Scope.Stmt Unit Unit := blkCode H (fun n => .plain (name n)) ()

/-- A variable is its place in the list. -/
def slot (D : List Name) (n : Name) : Scope.Ref Nat :=
  match D.idxOf? (lower n) with
  | some i => .loc i
  | none => .none

/-- The script as `VarsModel` takes it. -/
def taken (H : Host W F N) : Whole.Prog F → Scope.Code Unit Unit (Scope.Ref Nat) (Option Scope.Clear) :=
  blkCode H (slot H.names) none

/-! ## Scripts whose variables are all of the outermost scope -/

/-- A command uses and sets nothing but the variables `D`. -/
def Within (H : Host W F N) (D : List Name) (n : Script.Node F) : Prop :=
  (∀ m l, registers n = some (m, l) → lower m ∈ D) ∧ ∀ m ∈ H.gotRefs (Core.got n), m ∈ D

mutual
def StmtWithin (H : Host W F N) (D : List Name) : Stmt (Script.Node F) (Script.Node F) (List UInt8) → Prop
  | .act l => ∀ n ∈ l, Within H D n
  | .cond c => ChainWithin H D c
  | _ => False
def BlkWithin (H : Host W F N) (D : List Name) : Blk (Script.Node F) (Script.Node F) (List UInt8) → Prop
  | .nil => True
  | .cons c l => StmtWithin H D c ∧ BlkWithin H D l
def ChainWithin (H : Host W F N) (D : List Name) : Chain (Script.Node F) (Script.Node F) (List UInt8) → Prop
  | .one e b _ => (∀ m ∈ H.testRefs e, m ∈ D) ∧ BlkWithin H D b
  | .els e b _ c _ => (∀ m ∈ H.testRefs e, m ∈ D) ∧ BlkWithin H D b ∧ BlkWithin H D c
  | .elif e b _ c => (∀ m ∈ H.testRefs e, m ∈ D) ∧ BlkWithin H D b ∧ ChainWithin H D c
end

/-- Commands outside of blocks, with the variables before and after. -/
inductive TopCmds (H : Host W F N) : List Name → List (Script.Node F) → List Name → Prop where
  | nil {D} : TopCmds H D [] D
  | within {D n l D'} : Within H D n → TopCmds H D l D' → TopCmds H D (n :: l) D'
  | new {D c n a l D'} : registers c = some (n, a) → lower n ∉ D → (∀ m ∈ H.gotRefs (Core.got c), m ∈ D ++ [lower n]) →
      TopCmds H (D ++ [lower n]) l D' → TopCmds H D (c :: l) D'

/-- A script, with the variables before and after. -/
inductive Top (H : Host W F N) : List Name → Whole.Prog F → List Name → Prop where
  | nil {D} : Top H D .nil D
  | act {D l D' b D''} : TopCmds H D l D' → Top H D' b D'' → Top H D (.cons (.act l) b) D''
  | cond {D c b D'} : ChainWithin H D c → Top H D b D' → Top H D (.cons (.cond c) b) D'

/-! ## Proofs -/

theorem asciiChar_byte (b : UInt8) : Scope.asciiChar (Char.ofNat b.toNat) = Char.ofNat ((if 65 ≤ b ∧ b ≤ 90 then b + 32 else b) : UInt8).toNat := by
  have : ∀ i : Fin 256, Scope.asciiChar (Char.ofNat (UInt8.ofNat i).toNat) =
      Char.ofNat ((if 65 ≤ UInt8.ofNat i ∧ UInt8.ofNat i ≤ 90 then UInt8.ofNat i + 32 else UInt8.ofNat i) : UInt8).toNat := by
    decide +kernel
  have h := this ⟨b.toNat, b.toNat_lt⟩
  simpa using h

theorem name_inj {a b : List UInt8} (h : name a = name b) : a = b := by
  have key : ∀ i j : Fin 256, Char.ofNat i = Char.ofNat j → i = j := by decide +kernel
  refine List.map_injective_iff.2 (fun x y hxy => ?_) h
  have := key ⟨x.toNat, x.toNat_lt⟩ ⟨y.toNat, y.toNat_lt⟩ hxy
  exact UInt8.toNat_inj.1 (Fin.mk.inj this)

theorem ascii_name (n : List UInt8) : Scope.ascii (name n) = name (lower n) := by
  simp only [Scope.ascii, name, lower, List.map_map]
  refine List.map_congr_left fun b _ => ?_
  simpa using asciiChar_byte b

theorem lower_lower (n : List UInt8) : lower (lower n) = lower n := by
  have : ∀ i : Fin 256, (fun c : UInt8 => if 65 ≤ c && c ≤ 90 then c + 32 else c)
      ((fun c : UInt8 => if 65 ≤ c && c ≤ 90 then c + 32 else c) (UInt8.ofNat i)) =
      (fun c : UInt8 => if 65 ≤ c && c ≤ 90 then c + 32 else c) (UInt8.ofNat i) := by decide +kernel
  simp only [lower, List.map_map]
  refine List.map_congr_left fun b _ => ?_
  have h := this ⟨b.toNat, b.toNat_lt⟩
  rw [show UInt8.ofNat (⟨b.toNat, b.toNat_lt⟩ : Fin 256).1 = b from UInt8.ofNat_toNat] at h
  exact h

/-- The compiler's state with the variables `D`. -/
structure Knows (D : List Name) (st : Scope.St) : Prop where
  globals : st.globals = []
  loc : st.loc = 0
  num : st.num = D.length
  max : st.max = 0
  lower : ∀ d ∈ D, lower d = d
  get : ∀ n, Scope.getLocal st (name n) = D.idxOf? (Args.lower n)

theorem getLocal_ascii (st : Scope.St) (n : List UInt8) : Scope.getLocal st (name (lower n)) = Scope.getLocal st (name n) := by
  simp only [Scope.getLocal, ascii_name, lower_lower]

theorem idxOf?_append_left {D E : List Name} {n : Name} (h : n ∈ D) : (D ++ E).idxOf? n = D.idxOf? n := by
  induction D with
  | nil => cases h
  | cons a D ih =>
    simp only [List.cons_append, List.idxOf?_cons]
    by_cases ha : a = n
    · simp [ha]
    · have : n ∈ D := by simpa [Ne.symm ha] using h
      rw [ih this]

theorem idxOf?_snoc {D : List Name} {n : Name} (h : n ∉ D) (m : Name) :
    (D ++ [n]).idxOf? m = if m = n then some D.length else D.idxOf? m := by
  induction D with
  | nil =>
    by_cases hm : m = n
    · simp [List.idxOf?_cons, hm]
    · have : (n == m) = false := by simpa using Ne.symm hm
      simp [List.idxOf?_cons, hm, this]
  | cons a D ih =>
    simp only [List.mem_cons, not_or] at h
    simp only [List.cons_append, List.idxOf?_cons]
    by_cases ha : a = m
    · subst ha
      simp [Ne.symm h.1]
    · have hab : (a == m) = false := by simpa using ha
      simp only [hab, ih h.2]
      by_cases hm : m = n <;> simp [hm]

section
variable {H : Host W F N} {D : List Name} {st : Scope.St}

theorem slot_prefix (hp : D <+: H.names) {n : Name} (hn : lower n ∈ D) : slot H.names n = slot D n := by
  obtain ⟨E, hE⟩ := hp
  rw [← hE, slot, slot, idxOf?_append_left hn]

theorem use_slot (h : Knows D st) (n : Name) : Scope.use st (.plain (name n)) = slot D n := by
  simp only [Scope.use, Scope.isGlobal, h.globals, h.get, slot, List.not_mem_nil, decide_false, Bool.false_eq_true, if_false]
  cases D.idxOf? (lower n) <;> rfl

theorem uses_slot (h : Knows D st) (hp : D <+: H.names) {l : List Name} (hl : ∀ m ∈ l, m ∈ D) :
    Scope.uses st (uses (fun n => .plain (name n)) l) = uses (slot H.names) l := by
  simp only [Scope.uses, uses, List.map_map]
  refine List.map_congr_left fun m hm => ?_
  simp only [Function.comp]
  rw [use_slot h, slot_prefix hp (by rw [h.lower m (hl m hm)]; exact hl m hm)]

theorem open_knows (h : Knows D st) : Knows D (Scope.open st) :=
  ⟨h.globals, h.loc, h.num, h.max, h.lower, fun n => by
    rw [← h.get n]
    simp only [Scope.getLocal, Scope.open, List.findSome?_cons (a := [])]
    rfl⟩

theorem close_open (st : Scope.St) : Scope.close (Scope.open st) = (none, st) := by
  simp [Scope.close, Scope.open]

theorem cmd_within (h : Knows D st) (hp : D <+: H.names) {n : Script.Node F} (hn : Within H D n) :
    Scope.resolve (cmdCode H (fun n => .plain (name n)) n) st = some (cmdCode H (slot H.names) n, st) := by
  obtain ⟨hm, hr⟩ := hn
  cases he : registers n with
  | some p =>
    obtain ⟨m, a⟩ := p
    have hm := hm m a he
    obtain ⟨i, hi⟩ : ∃ i, D.idxOf? (lower m) = some i := by
      cases hk : D.idxOf? (lower m) with
      | none => exact absurd hm (by simpa [List.idxOf?_eq_none_iff] using hk)
      | some k => exact ⟨k, rfl⟩
    have hd : Scope.declare st (.plain (name m)) a = (.loc i, st) := by
      have hg' : Scope.getLocal st (name (lower m)) = some i := by rw [getLocal_ascii, h.get, hi]
      simp [Scope.declare, Scope.isGlobal, h.globals, ascii_name, Scope.register, hg']
    have hsl : slot H.names m = .loc i := by rw [slot_prefix hp hm, slot, hi]
    simp only [cmdCode, he, Scope.resolve, hd, uses_slot h hp hr, hsl]
  | none => simp only [cmdCode, he, Scope.resolve, uses_slot h hp hr]

theorem cmds_within (h : Knows D st) (hp : D <+: H.names) : ∀ l : List (Script.Node F), (∀ n ∈ l, Within H D n) →
    Scope.resolve (cmdsCode H (fun n => .plain (name n)) l) st = some (cmdsCode H (slot H.names) l, st)
  | [], _ => rfl
  | n :: l, hl => by
    simp only [cmdsCode, Scope.resolve, cmd_within h hp (hl n List.mem_cons_self), Option.bind_eq_bind, Option.bind_some,
      cmds_within h hp l fun n hn => hl n (List.mem_cons_of_mem _ hn)]
    rfl

mutual
theorem stmt_within (hp : D <+: H.names) : ∀ (c : Stmt (Script.Node F) (Script.Node F) (List UInt8)) (st : Scope.St), Knows D st → StmtWithin H D c →
    Scope.resolve (stmtCode H (fun n => .plain (name n)) () c) st = some (stmtCode H (slot H.names) none c, st)
  | .act l, st, h, hc => by
    simp only [stmtCode]
    exact cmds_within h hp l (by simpa only [StmtWithin] using hc)
  | .cond c, st, h, hc => by
    simp only [stmtCode]
    exact chain_within hp c _ h (by simpa only [StmtWithin] using hc)
  | .eval _, _, _, hc => hc.elim
  | .vac _ _, _, _, hc => hc.elim
  | .loop _ _ _, _, _, hc => hc.elim
  | .parts _ _ _, _, _, hc => hc.elim
  | .brk _, _, _, hc => hc.elim
  | .cont, _, _, hc => hc.elim
  | .ret, _, _, hc => hc.elim
theorem blk_within (hp : D <+: H.names) : ∀ (b : Blk (Script.Node F) (Script.Node F) (List UInt8)) (st : Scope.St), Knows D st → BlkWithin H D b →
    Scope.resolve (blkCode H (fun n => .plain (name n)) () b) st = some (blkCode H (slot H.names) none b, st)
  | .nil, _, _, _ => by simp only [blkCode, Scope.resolve]
  | .cons c l, st, h, hb => by
    simp only [BlkWithin] at hb
    simp only [blkCode, Scope.resolve, stmt_within hp c _ h hb.1, Option.bind_eq_bind, Option.bind_some, blk_within hp l _ h hb.2]
    rfl
theorem chain_within (hp : D <+: H.names) : ∀ (c : Chain (Script.Node F) (Script.Node F) (List UInt8)) (st : Scope.St), Knows D st → ChainWithin H D c →
    Scope.resolve (chainCode H (fun n => .plain (name n)) () c) st = some (chainCode H (slot H.names) none c, st)
  | .one e b _, st, h, hc => by
    simp only [ChainWithin] at hc
    simp only [chainCode, Scope.resolve, uses_slot h hp hc.1, blk_within hp b _ (open_knows h) hc.2, Option.bind_eq_bind,
      Option.bind_some, close_open]
    rfl
  | .els e b _ c _, st, h, hc => by
    simp only [ChainWithin] at hc
    simp only [chainCode, Scope.resolve, uses_slot h hp hc.1, blk_within hp b _ (open_knows h) hc.2.1, Option.bind_eq_bind,
      Option.bind_some, close_open, blk_within hp c _ (open_knows h) hc.2.2]
    rfl
  | .elif e b _ c, st, h, hc => by
    simp only [ChainWithin] at hc
    simp only [chainCode, Scope.resolve, uses_slot h hp hc.1, blk_within hp b _ (open_knows h) hc.2.1, Option.bind_eq_bind,
      Option.bind_some, close_open, chain_within hp c _ (open_knows h) hc.2.2]
    rfl
end

end

theorem topCmds_prefix {H : Host W F N} {D D' : List Name} {l : List (Script.Node F)} (h : TopCmds H D l D') : D <+: D' := by
  induction h with
  | nil => exact List.prefix_refl _
  | within _ _ ih => exact ih
  | new _ _ _ _ ih => exact (List.prefix_append _ _).trans ih

theorem top_prefix {H : Host W F N} {D D' : List Name} {b : Whole.Prog F} (h : Top H D b D') : D <+: D' := by
  induction h with
  | nil => exact List.prefix_refl _
  | act h _ ih => exact (topCmds_prefix h).trans ih
  | cond _ _ ih => exact ih

theorem register_knows {D : List Name} {st : Scope.St} (h : Knows D st) {n : Name} (hn : lower n ∉ D) (hs : st.stack = []) :
    Knows (D ++ [lower n]) { st with block := (name (lower n), st.num) :: st.block, num := st.num + 1 } := by
  refine ⟨h.globals, h.loc, by simp [h.num], h.max, fun d hd => ?_, fun m => ?_⟩
  · rcases List.mem_append.1 hd with hd | hd
    · exact h.lower d hd
    · rw [List.mem_singleton.1 hd, lower_lower]
  · rw [idxOf?_snoc hn, ← h.get m]
    simp only [Scope.getLocal, hs, ascii_name, List.findSome?_cons, Scope.find, List.find?_cons]
    by_cases hm : lower m = lower n
    · simp [hm, h.num]
    · have : name (lower n) ≠ name (lower m) := fun e => hm (name_inj e).symm
      simp [hm, this]

theorem topCmds_slots {H : Host W F N} {D D' : List Name} {l : List (Script.Node F)} (h : TopCmds H D l D') {st : Scope.St}
    (hk : Knows D st) (hs : st.stack = []) (hp : D' <+: H.names) :
    ∃ st', Scope.resolve (cmdsCode H (fun n => .plain (name n)) l) st = some (cmdsCode H (slot H.names) l, st') ∧
      Knows D' st' ∧ st'.stack = [] := by
  induction h generalizing st with
  | nil => exact ⟨st, rfl, hk, hs⟩
  | within hn hl ih =>
    obtain ⟨st', h1, h2, h3⟩ := ih hk hs hp
    refine ⟨st', ?_, h2, h3⟩
    simp only [cmdsCode, Scope.resolve, cmd_within hk ((topCmds_prefix hl).trans hp) hn, Option.bind_eq_bind, Option.bind_some, h1]
    rfl
  | @new D c n a l D' hg hn hr hl ih =>
    have hk' := register_knows hk hn hs
    obtain ⟨st', h1, h2, h3⟩ := ih hk' hs hp
    refine ⟨st', ?_, h2, h3⟩
    have hpre := (topCmds_prefix hl).trans hp
    have hd : Scope.declare st (.plain (name n)) a =
        (.loc D.length, { st with block := (name (lower n), st.num) :: st.block, num := st.num + 1 }) := by
      have hg' : Scope.getLocal st (name (lower n)) = none := by rw [getLocal_ascii, hk.get, List.idxOf?_eq_none_iff.2 hn]
      simp [Scope.declare, Scope.isGlobal, hk.globals, ascii_name, Scope.register, hg', hk.num, hs]
    have hsl : slot H.names n = .loc D.length := by
      rw [slot_prefix hpre (by simp), slot, idxOf?_snoc hn, if_pos rfl]
    have hc : Scope.resolve (cmdCode H (fun n => .plain (name n)) c) st = some (cmdCode H (slot H.names) c,
        { st with block := (name (lower n), st.num) :: st.block, num := st.num + 1 }) := by
      simp only [cmdCode, hg, Scope.resolve, hd, uses_slot hk' hpre hr, hsl]
    simp only [cmdsCode, Scope.resolve, hc, Option.bind_eq_bind, Option.bind_some, h1]
    rfl

theorem top_slots {H : Host W F N} {D D' : List Name} {b : Whole.Prog F} (h : Top H D b D') {st : Scope.St}
    (hk : Knows D st) (hs : st.stack = []) (hp : D' <+: H.names) :
    ∃ st', Scope.resolve (blkCode H (fun n => .plain (name n)) () b) st = some (blkCode H (slot H.names) none b, st') ∧ Knows D' st' := by
  induction h generalizing st with
  | nil => exact ⟨st, by simp only [blkCode, Scope.resolve], hk⟩
  | act hl hb ih =>
    obtain ⟨st1, h1, h2, h3⟩ := topCmds_slots hl hk hs ((top_prefix hb).trans hp)
    obtain ⟨st', h4, h5⟩ := ih h2 h3 hp
    refine ⟨st', ?_, h5⟩
    simp only [blkCode, stmtCode, Scope.resolve, h1, Option.bind_eq_bind, Option.bind_some, h4]
    rfl
  | cond hc hb ih =>
    obtain ⟨st', h4, h5⟩ := ih hk hs hp
    refine ⟨st', ?_, h5⟩
    simp only [blkCode, stmtCode, Scope.resolve, chain_within ((top_prefix hb).trans hp) _ _ hk hc, Option.bind_eq_bind,
      Option.bind_some, h4]
    rfl

/-- **C122** If all variables are set for the first time outside of blocks, in the order of the list, the compiler makes of every reference
the slot with the place of the variable in the list, reserves as many slots as there are variables, and clears nothing. -/
theorem scopes_agree {H : Host W F N} {b : Whole.Prog F} (h : Top H [] b H.names) :
    Scope.compile (written H b) = some (taken H b, H.names.length) := by
  obtain ⟨st, h1, h2⟩ := top_slots h (st := Scope.St.new) ⟨rfl, rfl, rfl, rfl, by simp, by simp [Scope.getLocal, Scope.St.new, Scope.find]⟩
    rfl (List.prefix_refl _)
  simp only [Scope.compile, written, h1, h2.max, h2.loc, h2.num, taken]
  simp

end Sieve.Vars
