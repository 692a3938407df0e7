import Verif.SourceSim
import Verif.VmFlow

/-!
# Every pass of the interpreter is a number of steps of the structured script
-/

namespace Sieve.Source

open Sieve.Vm Sieve.Compile

variable {W V P A T E : Type} {cfg : Cfg W V P} {lim : Limits} {code : List (Op A T E)}
variable {I : Interp cfg A T E} {src : Script W V P → Blk A T E}

/-! ## Using a value -/

theorem branch_at {p p0 ctx b K} {c : Chain A T E} (v : Bool)
    (h : Has code p0 (c.code ctx p0 (p0 + c.len (ctx.map Encl.sig))))
    (hp : p = p0 + (Chain.test c).len) (hf : FineC lim ctx c)
    (hr : Rest lim code ctx (p0 + c.len (ctx.map Encl.sig)) b K) :
    ∃ t, code[p]? = some (.jz t) ∧ At lim code (if v then p + 1 else t) (choose c v ++ .blk b :: K) := by
  subst hp
  cases c with
  | one t b1 cl =>
    simp only [Chain.code, has_append, TestE.code_length, Has, Blk.code_length, List.map_cons,
      show plainEncl.sig = (Kind.plain, none) from rfl] at h
    obtain ⟨h1, h2, h3, h4⟩ := h
    refine ⟨_, h2, ?_⟩
    cases v with
    | false =>
      refine .blk (ctx := ctx) ?_
      simp only [Chain.len] at hr
      rw [show p0 + (t.len + 1 + Blk.len ((Kind.plain, none) :: List.map Encl.sig ctx) b1 + clearLen cl) =
        p0 + t.len + 1 + Blk.len ((Kind.plain, none) :: List.map Encl.sig ctx) b1 + clearLen cl by omega] at hr
      exact hr
    | true =>
      refine .blk (ctx := plainEncl :: ctx) ⟨⟨hf.1.2.2, hf.2⟩, h3, .plain h4 (.inl ?_) hr.fine hr.has hr.bound⟩
      simp only [if_true, Chain.test, Chain.len, List.map_cons, show plainEncl.sig = (Kind.plain, none) from rfl]
      omega
  | els t b1 cl e cl' =>
    simp only [Chain.code, has_append, TestE.code_length, Has, Blk.code_length, List.map_cons,
      show plainEncl.sig = (Kind.plain, none) from rfl, List.length_append, clearCode_length] at h
    obtain ⟨h1, h2, ⟨h3, h4⟩, h5, h6, h7⟩ := h
    refine ⟨_, h2, ?_⟩
    cases v with
    | false =>
      refine .blk (ctx := plainEncl :: ctx) ⟨⟨hf.1.2.2.2, hf.2.2⟩, ?_, .plain ?_ (.inl ?_) hr.fine hr.has hr.bound⟩
      · rw [← Nat.add_assoc] at h6; exact h6
      · rw [← Nat.add_assoc] at h7; exact h7
      · simp only [Chain.len, List.map_cons, show plainEncl.sig = (Kind.plain, none) from rfl]
        simp only [Bool.false_eq_true, if_false]
        omega
    | true =>
      refine .blk (ctx := plainEncl :: ctx) ⟨⟨hf.1.2.2.1, hf.2.1⟩, h3, .plain h4 (.inr ?_) hr.fine hr.has hr.bound⟩
      rw [← h5]
      simp only [if_true, Chain.test, List.map_cons, show plainEncl.sig = (Kind.plain, none) from rfl]
      congr 1
      omega
  | elif t b1 cl c =>
    simp only [Chain.code, has_append, TestE.code_length, Has, Blk.code_length, List.map_cons,
      show plainEncl.sig = (Kind.plain, none) from rfl, List.length_append, clearCode_length] at h
    obtain ⟨h1, h2, ⟨h3, h4⟩, h5, h6⟩ := h
    refine ⟨_, h2, ?_⟩
    cases v with
    | false =>
      have e : p0 + t.len + 1 + Blk.len ((Kind.plain, none) :: List.map Encl.sig ctx) b1 + clearLen cl + 1 +
          Chain.len (List.map Encl.sig ctx) c = p0 + (Chain.elif t b1 cl c).len (ctx.map Encl.sig) := by
        simp only [Chain.len]; omega
      refine at_cond (ctx := ctx) ⟨hf.1.2.2.2, hf.2.2⟩ ?_ ?_
      · simp only [Bool.false_eq_true, if_false]
        rw [e]
        rw [← Nat.add_assoc] at h6; exact h6
      · simp only [Bool.false_eq_true, if_false]
        rw [e]; exact hr
    | true =>
      refine .blk (ctx := plainEncl :: ctx) ⟨⟨hf.1.2.2.1, hf.2.1⟩, h3, .plain h4 (.inr ?_) hr.fine hr.has hr.bound⟩
      rw [← h5]
      simp only [if_true, Chain.test, List.map_cons, show plainEncl.sig = (Kind.plain, none) from rfl]
      congr 1
      omega

/-- A value is used by a conditional jump. -/
theorem val_step {p n K} (h : Val lim code p n K) : ∀ (c : Ctx W V P) (tr : Bool) (ks), tr = (c.testResult ^^ n) →
    ∃ b t K' v, code[p]? = some (cjump b t) ∧
      SSteps I src ⟨K :: ks, c⟩ ⟨K' :: ks, { c with testResult := v }⟩ ∧
      (At lim code (if tr = b then p + 1 else t) K' ∨
        ∃ n', Val lim code (if tr = b then p + 1 else t) n' K' ∧ tr = (v ^^ n')) := by
  induction h with
  | @neg p n K _ ih =>
    intro c tr ks htr
    obtain ⟨b, t, K', v, h1, h2, h3⟩ := ih { c with testResult := !c.testResult } tr ks (by simp [htr])
    exact ⟨b, t, K', v, h1, .head rfl h2, h3⟩
  | @more p tgt n isAll l K h1 h2 h3 h4 ih =>
    intro c tr ks htr
    subst h3
    by_cases hv : c.testResult = isAll
    · refine ⟨_, _, .tests isAll l :: K, c.testResult, h1, .head ?_ .refl, .inl ?_⟩
      · simp only [sstep, hv, if_true]
        rw [← hv]
      · rw [if_pos (by rw [htr, hv])]
        exact .tests h2 h4
    · refine ⟨_, _, K, c.testResult, h1, .head ?_ .refl, .inr ⟨n, ?_, htr⟩⟩
      · simp [sstep, hv]
      · rw [if_neg ?_]
        · exact h4
        · rw [htr]; intro h; apply hv; simpa using h
  | @branch p p0 fin ctx b K c1 h1 h2 h3 h4 h5 =>
    intro c tr ks htr
    subst h2
    simp only [Bool.xor_false] at htr
    obtain ⟨t, h6, h7⟩ := branch_at c.testResult h1 h3 h4 h5
    exact ⟨true, t, _, c.testResult, h6, .head rfl .refl, .inl (by rw [htr]; exact h7)⟩
  | @vac p ctx a b K h1 h2 h3 =>
    intro c tr ks htr
    simp only [Bool.xor_false] at htr
    cases hv : c.testResult with
    | true =>
      refine ⟨true, p + 2, .ops [a] :: .blk b :: K, true, h1, .head ?_ .refl, .inl ?_⟩
      · simp only [sstep, hv, if_true]
        rw [← hv]
      · rw [htr, hv, if_pos rfl]
        exact .ops ⟨h2, trivial⟩ (.blk h3)
    | false =>
      refine ⟨true, p + 2, .blk b :: K, false, h1, .head ?_ .refl, .inl ?_⟩
      · simp only [sstep, hv, Bool.false_eq_true, if_false]
        rw [← hv]
      · rw [htr, hv, if_neg (by simp)]
        exact .blk h3

/-! ## The two machines side by side -/

/-- The script is compiled from its source. -/
structure Compiled (lim : Limits) (I : Interp cfg A T E) (src : Script W V P → Blk A T E) (s : Script W V P) : Prop where
  fine : FineB lim [] (src s)
  instrs : s.instrs = ((src s).code [] 0).map I.lower

/-- The states agree except for control flow. -/
def Same (m c : Ctx W V P) : Prop := m = move ⟨m.pos, m.numInstr, m.testResult, m.stack⟩ c

/-- Two entries of the script stack agree except for the position to return to. -/
structure SameFrame (fr sfr : Frame W V P) : Prop where
  script : fr.script = sfr.script
  locals : fr.prevLocals = sfr.prevLocals
  matchv : fr.prevMatch = sfr.prevMatch

/-- The script stack of the interpreter, that of the structured scripts, and what is to be done; the
topmost script is at position `p`. -/
inductive Stacked (lim : Limits) (I : Interp cfg A T E) (src : Script W V P → Blk A T E) :
    List (Frame W V P) → List (Frame W V P) → List (Todo A T E) → Nat → Prop where
  | nil {p} : Stacked lim I src [] [] [] p
  | cons {fr st sfr sst K ks p} : SameFrame fr sfr → Compiled lim I src fr.script →
      At lim ((src fr.script).code [] 0) p K → Stacked lim I src st sst ks fr.prevPos →
      Stacked lim I src (fr :: st) (sfr :: sst) (K :: ks) p

/-- Between two instructions. -/
structure SimAt (lim : Limits) (I : Interp cfg A T E) (src : Script W V P → Blk A T E) (m : Ctx W V P)
    (s : Conf W V P A T E) : Prop where
  same : Same m s.ctx
  stacked : Stacked lim I src m.stack s.ctx.stack s.todo m.pos

/-- A value has been found. -/
inductive SimVal (lim : Limits) (I : Interp cfg A T E) (src : Script W V P → Blk A T E) : Ctx W V P →
    Conf W V P A T E → Prop where
  | mk {m c fr st sfr sst n K ks} : Same m c → m.stack = fr :: st → c.stack = sfr :: sst → SameFrame fr sfr →
      Compiled lim I src fr.script → Val lim ((src fr.script).code [] 0) m.pos n K →
      m.testResult = (c.testResult ^^ n) → Stacked lim I src st sst ks fr.prevPos →
      SimVal lim I src m ⟨K :: ks, c⟩

def Sim (lim : Limits) (I : Interp cfg A T E) (src : Script W V P → Blk A T E) (m : Ctx W V P)
    (s : Conf W V P A T E) : Prop := SimAt lim I src m s ∨ SimVal lim I src m s

theorem stacked_length {st sst : List (Frame W V P)} {ks : List (Todo A T E)} {p} (h : Stacked lim I src st sst ks p) :
    st.length = sst.length ∧ ks.length = sst.length := by
  induction h with
  | nil => simp
  | cons _ _ _ _ ih => simp [ih.1, ih.2]

theorem fetch_op {s : Script W V P} (h : Compiled lim I src s) {p : Nat} {op}
    (hc : ((src s).code [] 0)[p]? = some op) : s.instrs[p]? = some (I.lower op) := by
  rw [h.instrs, List.getElem?_map, hc]; rfl

/-- A script at its start. -/
theorem start_at {s : Script W V P} (h : Compiled lim I src s) :
    At lim ((src s).code [] 0) 0 [.blk (src s)] := by
  refine .blk (ctx := []) ⟨h.fine, has_self _ _ [] rfl, ?_⟩
  have := Bound.root (lim := lim) (code := (src s).code [] 0)
  rw [Blk.code_length] at this
  simpa using this

/-! ### `foreverypart` loops being executed -/

/-- Number of `foreverypart` loops. -/
def nparts : Todo A T E → Nat
  | [] => 0
  | .parts _ _ _ :: K => nparts K + 1
  | _ :: K => nparts K

/-- There is an entry in the stack of parts for every `foreverypart` loop. -/
def PartsOk (s : Conf W V P A T E) : Prop := (s.todo.map nparts).sum ≤ s.ctx.partStack.length


theorem leaveParts_length (c : Ctx W V P) : (leaveParts c).partStack.length = c.partStack.length - 1 := by
  unfold leaveParts
  split
  · rename_i h; simp [h]
  · rename_i h; simp [h]

theorem breakOut_parts (r : Nat) : ∀ (K : Todo A T E) (c : Ctx W V P), nparts K + r ≤ c.partStack.length →
    nparts (breakOut K c).1 + r ≤ (breakOut K c).2.partStack.length
  | [], c, h => h
  | x :: K, c, h => by
    cases x with
    | parts l b cl => simp only [breakOut, nparts, leaveParts_length] at *; omega
    | loop e b cl => exact h
    | _ => exact breakOut_parts r K c h

theorem breakTo_parts (r : Nat) (l : String) : ∀ (K : Todo A T E) (c : Ctx W V P), nparts K + r ≤ c.partStack.length →
    nparts (breakTo l K c).1 + r ≤ (breakTo l K c).2.partStack.length
  | [], c, h => h
  | x :: K, c, h => by
    cases x with
    | parts l' b cl =>
      simp only [breakTo, nparts] at *
      split
      · simp only [leaveParts_length]; omega
      · exact breakTo_parts r l K _ (by rw [leaveParts_length]; omega)
    | _ => exact breakTo_parts r l K c h

theorem continueTo_parts (r : Nat) : ∀ (K : Todo A T E) (c : Ctx W V P), nparts K + r ≤ c.partStack.length →
    nparts (continueTo K c).1 + r ≤ (continueTo K c).2.partStack.length
  | [], c, h => h
  | x :: K, c, h => by
    cases x with
    | parts l' b cl =>
      simp only [continueTo, nparts] at *
      exact continueTo_parts r K _ (by rw [leaveParts_length]; omega)
    | loop e b cl => exact h
    | _ => exact continueTo_parts r K c h

theorem leaveAll_parts (r : Nat) : ∀ (K : Todo A T E) (c : Ctx W V P), nparts K + r ≤ c.partStack.length →
    r ≤ (leaveAll K c).partStack.length
  | [], c, h => by simpa [nparts, leaveAll] using h
  | x :: K, c, h => by
    cases x with
    | parts l' b cl =>
      simp only [leaveAll, nparts] at *
      exact leaveAll_parts r K _ (by rw [leaveParts_length]; omega)
    | _ => exact leaveAll_parts r K c h

theorem sync_parts (ks : List (Todo A T E)) (st : List (Frame W V P)) :
    ((sync src ks st).map nparts).sum ≤ (ks.map nparts).sum := by
  unfold sync
  split
  · simp
  · split
    · simp [nparts]
    · exact Nat.le_refl _

theorem sync_nil (ks : List (Todo A T E)) : sync src ks ([] : List (Frame W V P)) = [] := rfl

/-- The state after a step. -/
def SStep.conf : SStep W V P A T E → Conf W V P A T E
  | .cont s => s
  | .ret _ s => s

def stepCtx : Step W V P → Ctx W V P
  | .cont c => c
  | .ret _ c => c

theorem perform_conf (again next : Todo A T E) (ks c i) : (perform cfg src again next ks c i).conf =
    ⟨sync src ((if suspends i c.view then again else next) :: ks) (stepCtx (exec cfg c i)).stack,
      stepCtx (exec cfg c i)⟩ := by
  unfold perform
  cases exec cfg c i <;> rfl

/-- Instructions leave the stack of parts alone, or end the scripts. -/
theorem plain_parts (c : Ctx W V P) (i : Instr W V P) (hi : Plain i) :
    (stepCtx (exec cfg c i)).partStack = c.partStack ∨ (stepCtx (exec cfg c i)).stack = [] := by
  have h := exec_twin (cfg := cfg) c ⟨c.pos, c.numInstr, c.testResult, c.stack⟩ i hi rfl
  generalize exec cfg c i = x at h
  generalize exec cfg (move _ c) i = y at h
  cases h with
  | cont _ h => exact .inl h.parts
  | push => exact .inl rfl
  | ret _ h => exact .inl h.parts
  | again _ h => exact .inl h.parts
  | over h => exact .inr h

theorem atom_parts (c : Ctx W V P) (a : Atom A T E) :
    (stepCtx (exec cfg c (I.atom a))).partStack = c.partStack ∨ (stepCtx (exec cfg c (I.atom a))).stack = [] := by
  have h := atom_twin I c ⟨c.pos, c.numInstr, c.testResult, c.stack⟩ a false
  generalize exec cfg c (I.atom a) = x at h
  generalize exec cfg (move _ c) (I.lower (a.op false)) = y at h
  cases h with
  | cont _ h => exact .inl h.parts
  | ret _ h => exact .inl h.parts
  | again _ h => exact .inl h.parts
  | over h => exact .inr h

theorem perform_parts {again next : Todo A T E} {ks} {c : Ctx W V P} {i} (n : Nat) (ha : nparts again = n)
    (hn : nparts next = n) (h : n + (ks.map nparts).sum ≤ c.partStack.length)
    (hp : (stepCtx (exec cfg c i)).partStack = c.partStack ∨ (stepCtx (exec cfg c i)).stack = []) :
    PartsOk (perform cfg src again next ks c i).conf := by
  rw [perform_conf]
  unfold PartsOk
  rcases hp with hp | hp
  · simp only [hp]
    refine Nat.le_trans (sync_parts _ _) ?_
    rw [List.map_cons, List.sum_cons]
    split
    · rw [ha]; exact h
    · rw [hn]; exact h
  · simp [hp, sync_nil]

theorem choose_parts (c : Chain A T E) (v : Bool) (K : Todo A T E) : nparts (choose c v ++ K) = nparts K := by
  cases c <;> cases v <;> rfl

theorem sstep_parts (s : Conf W V P A T E) (h : PartsOk s) : PartsOk (sstep I src s).conf := by
  rcases s with ⟨_ | ⟨_ | ⟨x, K⟩, ks⟩, c⟩
  · exact h
  · simp only [sstep]
    have hl : ∀ x, leave cfg c = .cont x → x.partStack = c.partStack := by
      intro x hx
      unfold leave at hx
      split at hx
      · exact absurd hx (finish_not_cont _ _ _)
      · simp only at hx
        split at hx
        · exact absurd hx (finish_not_cont _ _ _)
        · injection hx with hx; subst hx; rfl
    unfold PartsOk at *
    cases hx : leave cfg c with
    | cont x => simp only [SStep.conf]; rw [hl x hx]; simpa [nparts] using h
    | ret o x => simp [SStep.conf]
  · unfold PartsOk at h
    simp only [List.map_cons, List.sum_cons] at h
    cases x with
    | blk b =>
      cases b with
      | nil => simpa [sstep, SStep.conf, PartsOk, nparts] using h
      | cons st b =>
        have h : nparts K + (ks.map nparts).sum ≤ c.partStack.length := h
        cases st with
        | parts l b1 cl =>
          simp only [sstep, SStep.conf, PartsOk, nparts, List.map_cons, List.sum_cons, List.length_cons] at *
          omega
        | brk l =>
          cases l with
          | none => simpa [sstep, SStep.conf, PartsOk] using breakOut_parts _ (.blk b :: K) c h
          | some l => simpa [sstep, SStep.conf, PartsOk] using breakTo_parts _ l (.blk b :: K) c h
        | cont => simpa [sstep, SStep.conf, PartsOk] using continueTo_parts _ (.blk b :: K) c h
        | ret => simpa [sstep, SStep.conf, PartsOk, nparts] using leaveAll_parts _ (.blk b :: K) c h
        | _ => simpa [sstep, SStep.conf, PartsOk, nparts] using h
    | ops is =>
      cases is with
      | nil => simpa [sstep, SStep.conf, PartsOk, nparts] using h
      | cons a is => exact perform_parts (nparts K) rfl rfl h (plain_parts c _ (I.plain a))
    | ev e => exact perform_parts (nparts K) rfl rfl h (atom_parts (I := I) c (.ev e))
    | test e =>
      cases e with
      | atom a => exact perform_parts (nparts K) rfl rfl h (atom_parts c a)
      | _ => simpa [sstep, SStep.conf, PartsOk, nparts] using h
    | tests a l => cases l <;> simpa [sstep, SStep.conf, PartsOk, nparts] using h
    | neg => simpa [sstep, SStep.conf, PartsOk, nparts] using h
    | more a l =>
      simp only [sstep]
      split <;> simpa [SStep.conf, PartsOk, nparts] using h
    | branch ch => simpa [sstep, SStep.conf, PartsOk, nparts, choose_parts] using h
    | vac a =>
      simp only [sstep]
      split <;> simpa [SStep.conf, PartsOk, nparts] using h
    | loop e b cl =>
      simp only [sstep]
      split
      · simpa [SStep.conf, PartsOk, nparts] using h
      · split <;> simpa [SStep.conf, PartsOk, nparts] using h
    | parts l b cl =>
      simp only [sstep]
      split
      · simpa [SStep.conf, PartsOk, nparts] using h
      · simp only [SStep.conf, PartsOk, nparts, leaveParts_length, List.map_cons, List.sum_cons] at *
        omega
    | clear cl => cases cl <;> simpa [sstep, SStep.conf, PartsOk, nparts] using h

theorem ssteps_parts {s s' : Conf W V P A T E} (h : SSteps I src s s') (hp : PartsOk s) : PartsOk s' := by
  induction h with
  | refl => exact hp
  | @head s s' s'' h _ ih =>
    have := sstep_parts (I := I) (src := src) s hp
    rw [h] at this
    exact ih this


/-! ### One pass -/

/-- The structured script, starting in `s`, does the same as this step of the interpreter. -/
def Follows (lim : Limits) (I : Interp cfg A T E) (src : Script W V P → Blk A T E) (s : Conf W V P A T E) :
    Step W V P → Prop
  | .cont m => ∃ s', SSteps I src s s' ∧ Sim lim I src m s'
  | .ret o m => ∃ s1 s2, SSteps I src s s1 ∧ sstep I src s1 = .ret o s2 ∧ Sim lim I src m s2 ∧
      ((∃ n op, o = .event (.includeScript n op)) → SimAt lim I src m s2)

theorem Follows.after {s s' : Conf W V P A T E} {x} (h : SSteps I src s s') (hf : Follows lim I src s' x) :
    Follows lim I src s x := by
  cases x with
  | cont m =>
    obtain ⟨s2, h1, h2⟩ := hf
    exact ⟨s2, h.trans h1, h2⟩
  | ret o m =>
    obtain ⟨s1, s2, h1, h2⟩ := hf
    exact ⟨s1, s2, h.trans h1, h2⟩

theorem step_exec {m : Ctx W V P} {fr st i} (hs : m.stack = fr :: st) (hf : fr.script.instrs[m.pos]? = some i) :
    (step cfg m = .ret (.error .cpuLimit) (finishLoop cfg { m with numInstr := m.numInstr + 1 })) ∨
      step cfg m = exec cfg { m with numInstr := m.numInstr + 1, pos := m.pos + 1 } i := by
  unfold step
  rw [hs]
  simp only
  rw [hf]
  simp only
  split
  · exact .inl rfl
  · exact .inr rfl

theorem same_move {m c : Ctx W V P} (h : Same m c) (a b : Nat) :
    ({ m with numInstr := a, pos := b } : Ctx W V P) = move ⟨b, a, m.testResult, m.stack⟩ c :=
  congrArg (fun x : Ctx W V P => { x with numInstr := a, pos := b }) h

theorem same_of_move (r : Place W V P) (c : Ctx W V P) : Same (move r c) c := rfl

theorem sync_same {ks : List (Todo A T E)} {st : List (Frame W V P)} (h : ks.length = st.length) (hne : st ≠ []) :
    sync src ks st = ks := by
  cases st with
  | nil => exact absurd rfl hne
  | cons fr st => simp [sync, h]

theorem sync_push {ks : List (Todo A T E)} {fr : Frame W V P} {st} (h : ks.length = st.length) :
    sync src ks (fr :: st) = [.blk (src fr.script)] :: ks := by
  simp [sync, h]

section
variable {m c : Ctx W V P} {fr sfr : Frame W V P} {st sst : List (Frame W V P)} {ks : List (Todo A T E)}

/-- The setting of the lemmas below: two running machines. -/
structure Setting (lim : Limits) (I : Interp cfg A T E) (src : Script W V P → Blk A T E) (m c : Ctx W V P)
    (fr sfr : Frame W V P) (st sst : List (Frame W V P)) (ks : List (Todo A T E)) : Prop where
  same : Same m c
  mstack : m.stack = fr :: st
  cstack : c.stack = sfr :: sst
  frame : SameFrame fr sfr
  compiled : Compiled lim I src fr.script
  below : Stacked lim I src st sst ks fr.prevPos

/-- The place of the interpreter after fetching an instruction. -/
def next (m : Ctx W V P) : Place W V P := ⟨m.pos + 1, m.numInstr + 1, m.testResult, m.stack⟩

theorem Setting.at' (h : Setting lim I src m c fr sfr st sst ks) {c' : Ctx W V P} {p n v K} (hc : c'.stack = c.stack)
    (ha : At lim ((src fr.script).code [] 0) p K) :
    SimAt lim I src (move ⟨p, n, v, m.stack⟩ c') ⟨K :: ks, c'⟩ :=
  ⟨rfl, by
    show Stacked lim I src m.stack c'.stack (K :: ks) p
    rw [hc, h.mstack, h.cstack]
    exact .cons h.frame h.compiled ha h.below⟩

theorem over_at {r : Place W V P} {c' : Ctx W V P} (hr : r.stack = []) (hc : c'.stack = []) {ks : List (Todo A T E)} :
    SimAt lim I src (move r c') ⟨sync src ks c'.stack, c'⟩ :=
  ⟨rfl, by
    show Stacked lim I src r.stack c'.stack (sync src ks c'.stack) r.pos
    rw [hr, hc]; exact .nil⟩

theorem Setting.len (h : Setting lim I src m c fr sfr st sst ks) : m.stack.length = c.stack.length ∧
    ∀ K : Todo A T E, (K :: ks).length = c.stack.length := by
  have := stacked_length h.below
  rw [h.mstack, h.cstack]
  simp [this.1, this.2]

theorem Setting.plain (h : Setting lim I src m c fr sfr st sst ks)
    (hreg : ∀ n s, cfg.registered n = some s → Compiled lim I src s)
    (hcache : ∀ x ∈ m.cache, Compiled lim I src x.2) {i} (hi : Plain i) {again nxt : Todo A T E}
    (h1 : At lim ((src fr.script).code [] 0) m.pos again) (h2 : At lim ((src fr.script).code [] 0) (m.pos + 1) nxt)
    {s : Conf W V P A T E} (hs : sstep I src s = perform cfg src again nxt ks c i) :
    Follows lim I src s (exec cfg (move (next m) c) i) := by
  have hne : c.stack ≠ [] := by rw [h.cstack]; simp
  have ht := exec_twin (cfg := cfg) c (next m) i hi h.len.1
  rw [perform] at hs
  generalize exec cfg c i = x at ht hs
  generalize exec cfg (move (next m) c) i = y at ht
  cases ht with
  | cont hsus hst =>
    rw [hsus] at hs
    simp only [Bool.false_eq_true, if_false] at hs
    rw [sync_same (by rw [hst.stack]; exact h.len.2 _) (by rw [hst.stack]; exact hne)] at hs
    exact ⟨_, .head hs .refl, .inl (h.at' hst.stack h2)⟩
  | push s' hsus hw =>
    rw [hsus] at hs
    simp only [Bool.false_eq_true, if_false] at hs
    rw [show (pushScript cfg c s').stack = ⟨s', c.pos, c.locals, c.matchv⟩ :: c.stack from rfl,
      sync_push (h.len.2 _)] at hs
    have hc : Compiled lim I src s' := by
      obtain ⟨n, hw | hw⟩ := hw
      · obtain ⟨k, hk⟩ := lookup_mem hw
        have : m.cache = c.cache := by have e := h.same; unfold Same at e; exact (congrArg Ctx.cache e).trans rfl
        exact hcache _ (by rw [this]; exact hk)
      · exact hreg _ _ hw
    refine ⟨_, .head hs .refl, .inl ⟨rfl, ?_⟩⟩
    refine .cons ⟨rfl, rfl, rfl⟩ hc (start_at hc) ?_
    exact (h.at' (n := 0) (v := false) (c' := c) rfl h2).stacked
  | ret hsus hst =>
    rw [hsus] at hs
    simp only [Bool.false_eq_true, if_false] at hs
    rw [sync_same (by rw [hst.stack]; exact h.len.2 _) (by rw [hst.stack]; exact hne)] at hs
    exact ⟨_, _, .refl, hs, .inl (h.at' hst.stack h2), fun _ => h.at' hst.stack h2⟩
  | again hsus hst =>
    rw [hsus] at hs
    simp only [if_true] at hs
    rw [sync_same (by rw [hst.stack]; exact h.len.2 _) (by rw [hst.stack]; exact hne)] at hs
    have e : (next m).pos - 1 = m.pos := by simp [next]
    have := h.at' (n := (next m).numInstr) (v := (next m).testResult) hst.stack h1
    rw [← e] at this
    exact ⟨_, _, .refl, hs, .inl this, fun _ => this⟩
  | over hst =>
    have := over_at (lim := lim) (I := I) (src := src) (r := { next m with stack := [] }) rfl hst
      (ks := (if suspends i c.view then again else nxt) :: ks)
    exact ⟨_, _, .refl, hs, .inl this, fun _ => this⟩

/-- An atomic test; `hv` says that either its value is used or not. -/
theorem Setting.atom (h : Setting lim I src m c fr sfr st sst ks) {a : Atom A T E} {n : Bool} {again nxt : Todo A T E}
    (h1 : At lim ((src fr.script).code [] 0) m.pos again)
    (h2 : At lim ((src fr.script).code [] 0) (m.pos + 1) nxt ∨ Val lim ((src fr.script).code [] 0) (m.pos + 1) n nxt)
    {s : Conf W V P A T E} (hs : sstep I src s = perform cfg src again nxt ks c (I.atom a)) :
    Follows lim I src s (exec cfg (move (next m) c) (I.lower (a.op n))) := by
  have hne : c.stack ≠ [] := by rw [h.cstack]; simp
  have ht := atom_twin I c (next m) a n
  rw [perform] at hs
  have sim : ∀ c', Still c c' →
      Sim lim I src (move { next m with testResult := c'.testResult ^^ n } c') ⟨nxt :: ks, c'⟩ := by
    intro c' hst
    rcases h2 with h2 | h2
    · exact .inl (h.at' hst.stack h2)
    · exact .inr (.mk rfl h.mstack (by rw [hst.stack]; exact h.cstack) h.frame h.compiled h2 rfl h.below)
  generalize exec cfg c (I.atom a) = x at ht hs
  generalize exec cfg (move (next m) c) (I.lower (a.op n)) = y at ht
  cases ht with
  | cont hsus hst =>
    rw [hsus] at hs
    simp only [Bool.false_eq_true, if_false] at hs
    rw [sync_same (by rw [hst.stack]; exact h.len.2 _) (by rw [hst.stack]; exact hne)] at hs
    exact ⟨_, .head hs .refl, sim _ hst⟩
  | ret hsus hst ho =>
    rw [hsus] at hs
    simp only [Bool.false_eq_true, if_false] at hs
    rw [sync_same (by rw [hst.stack]; exact h.len.2 _) (by rw [hst.stack]; exact hne)] at hs
    exact ⟨_, _, .refl, hs, sim _ hst, fun ⟨k, op, e⟩ => absurd e (ho k op)⟩
  | again hsus hst ho =>
    rw [hsus] at hs
    simp only [if_true] at hs
    rw [sync_same (by rw [hst.stack]; exact h.len.2 _) (by rw [hst.stack]; exact hne)] at hs
    have e : (next m).pos - 1 = m.pos := by simp [next]
    have := h.at' (n := (next m).numInstr) (v := (next m).testResult) hst.stack h1
    rw [← e] at this
    exact ⟨_, _, .refl, hs, .inl this, fun _ => this⟩
  | over hst =>
    have := over_at (lim := lim) (I := I) (src := src) (r := { next m with stack := [] }) rfl hst
      (ks := (if suspends (I.atom a) c.view then again else nxt) :: ks)
    exact ⟨_, _, .refl, hs, .inl this, fun _ => this⟩

/-- The end of a script. -/
theorem Setting.leave (h : Setting lim I src m c fr sfr st sst ks) (r : Place W V P) (hr : r.stack = m.stack) :
    Follows lim I src ⟨[] :: ks, c⟩ (Vm.leave cfg (move r c)) := by
  have hc := h.cstack
  have hm : (move r c).stack = fr :: st := hr.trans h.mstack
  have hlen := stacked_length h.below
  unfold Vm.leave
  rw [hm]
  simp only
  by_cases he : st = []
  · subst he
    have hsst : sst = [] := by simpa using hlen.1.symm
    subst hsst
    simp only [List.isEmpty_nil, if_true]
    have hk : ks = [] := by simpa using hlen.2
    subst hk
    have e : ({ move r c with stack := [], pos := fr.prevPos, locals := fr.prevLocals, matchv := fr.prevMatch } : Ctx W V P)
        = move ⟨fr.prevPos, r.numInstr, r.testResult, []⟩
          { c with stack := [], pos := sfr.prevPos, locals := sfr.prevLocals, matchv := sfr.prevMatch } := by
      simp only [move, h.frame.locals, h.frame.matchv]
    rw [e, finish_move]
    cases hf : finish cfg { c with stack := [], pos := sfr.prevPos, locals := sfr.prevLocals, matchv := sfr.prevMatch } with
    | cont x => exact absurd hf (finish_not_cont _ _ _)
    | ret o x =>
      have hx : x.stack = [] := by rw [(finish_ret hf).1.1]
      have hs : sstep I src ⟨[[]], c⟩ = .ret o ⟨[], x⟩ := by
        simp [sstep, Vm.leave, hc, hf]
      have := over_at (lim := lim) (I := I) (src := src) (r := ⟨fr.prevPos, r.numInstr, r.testResult, []⟩) rfl hx
        (ks := [])
      rw [hx, sync_nil] at this
      exact ⟨_, _, .refl, hs, .inl this, fun _ => this⟩
  · have hsst : sst ≠ [] := by rintro rfl; simp at hlen; exact he hlen.1
    rw [if_neg (by simpa using he)]
    refine ⟨⟨ks, { c with stack := sst, pos := sfr.prevPos, locals := sfr.prevLocals, matchv := sfr.prevMatch }⟩,
      .head ?_ .refl, .inl ⟨?_, h.below⟩⟩
    · simp [sstep, Vm.leave, hc, hsst]
    · simp only [Same, move, h.frame.locals, h.frame.matchv]

end

theorem popParts_move (r : Place W V P) : ∀ (n : Nat) (c : Ctx W V P), popParts n (move r c) = move r (popParts n c)
  | 0, c => rfl
  | n + 1, c => by
    rw [popParts, popParts, show (move r c).partStack = c.partStack from rfl]
    split
    · rfl
    · rename_i q it rest _
      exact popParts_move r n { c with part := q, partIter := it, partStack := rest }

theorem popParts_stack : ∀ (n : Nat) (c : Ctx W V P), (popParts n c).stack = c.stack
  | 0, c => rfl
  | n + 1, c => by
    rw [popParts]
    split
    · rfl
    · exact popParts_stack n _

theorem sim_step {m : Ctx W V P} {s : Conf W V P A T E} (h : Sim lim I src m s) (hp : PartsOk s)
    (hreg : ∀ n s, cfg.registered n = some s → Compiled lim I src s)
    (hcache : ∀ x ∈ m.cache, Compiled lim I src x.2) :
    (step cfg m = .ret (.error .cpuLimit) (finishLoop cfg { m with numInstr := m.numInstr + 1 })) ∨ Follows lim I src s (step cfg m) := by
  rcases h with ⟨hsame, hst⟩ | h
  · rcases s with ⟨todo, c⟩
    simp only at hsame hst
    generalize hms : m.stack = a at hst
    generalize hcs : c.stack = b at hst
    generalize hpp : m.pos = p at hst
    cases hst with
    | nil =>
      refine .inr ?_
      rw [show step cfg m = .ret .none m by simp [step, hms]]
      exact ⟨_, _, .refl, rfl, .inl ⟨hsame, by rw [hms, hcs]; exact .nil⟩,
        fun _ => ⟨hsame, by rw [hms, hcs]; exact .nil⟩⟩
    | @cons fr st sfr sst K ks p hfr hcomp hat hbelow =>
      subst hpp
      have S : Setting lim I src m c fr sfr st sst ks := ⟨hsame, hms, hcs, hfr, hcomp, hbelow⟩
      obtain ⟨K', hready, hsil⟩ := at_ready (I := I) (src := src) hat
      have hp' := ssteps_parts (hsil ks c) hp
      suffices H : (step cfg m = .ret (.error .cpuLimit) (finishLoop cfg { m with numInstr := m.numInstr + 1 })) ∨
          Follows lim I src ⟨K' :: ks, c⟩ (step cfg m) from H.imp id (Follows.after (hsil ks c))
      have hv : (move (next m) c).view = c.view := rfl
      generalize hpp : m.pos = p at hready
      cases hready with
      | done =>
        have hn : fr.script.instrs[m.pos]? = none := by
          rw [hcomp.instrs, hpp]; simp
        have hl : ¬ fr.script.instrs.length < m.pos := by
          rw [hcomp.instrs, hpp]; simp
        have : step cfg m = Vm.leave cfg m := by
          simp [step, hms, hn, hl]
        rw [this, hsame]
        exact .inr (S.leave _ rfl)
      | ret hop =>
        subst hpp
        refine (step_exec hms (fetch_op hcomp hop)).imp id (fun e => ?_)
        rw [e, same_move hsame]
        exact S.leave (next m) rfl
      | jump hop ha =>
        subst hpp
        refine (step_exec hms (fetch_op hcomp hop)).imp id (fun e => ?_)
        rw [e, same_move hsame]
        exact ⟨_, .refl, .inl (S.at' rfl ha)⟩
      | op hop ha hb =>
        subst hpp
        refine (step_exec hms (fetch_op hcomp hop)).imp id (fun e => ?_)
        rw [e, same_move hsame]
        exact S.plain hreg hcache (I.plain _) hb ha rfl
      | ev hop ha =>
        subst hpp
        refine (step_exec hms (fetch_op hcomp hop)).imp id (fun e => ?_)
        rw [e, same_move hsame]
        exact S.atom (a := .ev _) (n := false) (.ev hop ha) (.inl ha) rfl
      | @loop p stop e b cl K hop h1 h2 h3 =>
        subst hpp
        refine (step_exec hms (fetch_op hcomp hop)).imp id (fun he => ?_)
        rw [he, same_move hsame]
        simp only [Interp.lower, exec]
        rw [show (move ⟨m.pos + 1, m.numInstr + 1, m.testResult, m.stack⟩ c).view = c.view from rfl]
        cases hx : I.expr e c.view with
        | call q w =>
          have := S.at' (c' := { c with world := w }) (p := m.pos) (n := m.numInstr + 1) (v := m.testResult) rfl h3
          refine ⟨_, _, .refl, ?_, .inl this, fun _ => this⟩
          simp [sstep, hx]
        | done v w =>
          cases hb : cfg.toBool v with
          | true =>
            simp only [hb, if_true]
            refine ⟨_, .head ?_ .refl, .inl (S.at' (c' := { c with world := w }) (n := m.numInstr + 1) (v := m.testResult) rfl h1)⟩
            simp [sstep, hx, hb]
          | false =>
            simp only [hb, Bool.false_eq_true, if_false]
            refine ⟨_, .head ?_ .refl, .inl (S.at' (c' := { c with world := w }) (n := m.numInstr + 1) (v := m.testResult) rfl h2)⟩
            simp [sstep, hx, hb]
      | push hop ha =>
        subst hpp
        refine (step_exec hms (fetch_op hcomp hop)).imp id (fun e => ?_)
        rw [e, same_move hsame]
        exact ⟨_, .head rfl .refl, .inl (S.at' (c' := { c with
          partIter := cfg.nested c.world c.part c.partStack.isEmpty
          partStack := (c.part, c.partIter) :: c.partStack }) rfl ha)⟩
      | @parts p stop l b cl K hop h1 h2 =>
        subst hpp
        refine (step_exec hms (fetch_op hcomp hop)).imp id (fun e => ?_)
        rw [e, same_move hsame]
        simp only [Interp.lower, exec]
        rw [show (move ⟨m.pos + 1, m.numInstr + 1, m.testResult, m.stack⟩ c).partIter = c.partIter from rfl]
        cases hx : c.partIter with
        | cons q it =>
          refine ⟨_, .head ?_ .refl, .inl (S.at' (c' := { c with part := q, partIter := it }) rfl h1)⟩
          simp [sstep, hx]
        | nil =>
          rw [show (move ⟨m.pos + 1, m.numInstr + 1, m.testResult, m.stack⟩ c).partStack = c.partStack from rfl]
          cases hy : c.partStack with
          | nil =>
            unfold PartsOk at hp'
            simp [nparts, hy] at hp'
          | cons q rest =>
            refine ⟨_, .head ?_ .refl, .inl (S.at' (c' := { c with part := q.1, partIter := q.2, partStack := rest }) rfl h2)⟩
            simp [sstep, hx, leaveParts, hy]
      | @pop p n K K' hop ha hs =>
        subst hpp
        refine (step_exec hms (fetch_op hcomp hop)).imp id (fun e => ?_)
        rw [e, same_move hsame]
        simp only [Interp.lower, exec]
        rw [popParts_move]
        exact ⟨_, .head (hs ks c) .refl, .inl (S.at' (popParts_stack n c) ha)⟩
      | @atom p n a K hop hval =>
        subst hpp
        refine (step_exec hms (fetch_op hcomp hop)).imp id (fun e => ?_)
        rw [e, same_move hsame]
        exact S.atom (.test (n := n) (e := .atom a) ⟨hop, trivial⟩ hval) (.inr hval) rfl
  · cases h with
    | @mk c fr st sfr sst n K ks hsame hms hcs hfr hcomp hval htr hbelow =>
      have S : Setting lim I src m c fr sfr st sst ks := ⟨hsame, hms, hcs, hfr, hcomp, hbelow⟩
      obtain ⟨b, t, K', v, hop, hss, hn⟩ := val_step (I := I) (src := src) hval c m.testResult ks htr
      refine (step_exec hms (fetch_op hcomp hop)).imp id (fun e => ?_)
      have hx : exec cfg { m with numInstr := m.numInstr + 1, pos := m.pos + 1 } (I.lower (cjump b t)) =
          .cont (move ⟨if m.testResult = b then m.pos + 1 else t, m.numInstr + 1, m.testResult, m.stack⟩
            { c with testResult := v }) := by
        rw [same_move hsame]
        cases b <;> cases hm : m.testResult <;> simp [cjump, Interp.lower, exec, move]
      rw [e, hx]
      refine ⟨_, hss, ?_⟩
      rcases hn with hn | ⟨n', hn, hv⟩
      · exact .inl (S.at' rfl hn)
      · exact .inr (.mk rfl hms hcs hfr hcomp hn hv hbelow)

end Sieve.Source
