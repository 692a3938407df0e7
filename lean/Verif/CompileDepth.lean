import Verif.CompileForward

/-!
# The `foreverypart` loops around an instruction (C101)

Whatever the compiler emits, every position of it can be given the number of entries the stack of
message parts has at least when the interpreter gets there: zero at the start, one more after a
`ForEveryPartPush`, `n` less after a `ForEveryPartPop(n)`, one less where a `ForEveryPart` leads to.
-/

namespace Sieve.Compile

variable {A T E : Type}

/-- The numbers `d` agree with the instruction at position `p`, as far as what comes after it in the
list is concerned. -/
def Op.Falls (d : Nat → Nat) (p : Nat) : Op A T E → Prop
  | .fepPush => d (p + 1) ≤ d p + 1
  | .fep _ => 0 < d p ∧ d (p + 1) ≤ d p
  | .fepPop n => 0 < n ∧ d (p + 1) + n ≤ d p
  | .jmp _ => True
  | .ret => True
  | _ => d (p + 1) ≤ d p

/-- How many entries have been taken from the stack when the instruction has jumped. -/
def Op.taken : Op A T E → Nat
  | .fep _ => 1
  | _ => 0

/-- The numbers `d` agree with all instructions. -/
structure Depths (ops : List (Op A T E)) (d : Nat → Nat) : Prop where
  falls : ∀ (p : Nat) (o : Op A T E), ops[p]? = some o → o.Falls d p
  jumps : ∀ (p : Nat) (o : Op A T E) (t : Nat), ops[p]? = some o → o.target = some t →
    t = maxPos ∨ t ≤ ops.length ∧ d t + o.taken ≤ d p

theorem Op.falls_congr {d d' : Nat → Nat} {p} {o : Op A T E} (h : o.Falls d p) (h0 : d' p = d p) (h1 : d' (p + 1) = d (p + 1)) :
    o.Falls d' p := by
  cases o <;> simp only [Op.Falls, h0, h1] at * <;> exact h

theorem Op.alike_falls {d : Nat → Nat} {p} {o o' : Op A T E} (h : o.Falls d p) (ha : o.alike o') : o'.Falls d p := by
  cases o <;> cases o' <;> simp_all [Op.alike, Op.Falls]

theorem Op.alike_taken {o o' : Op A T E} (ha : o.alike o') : o'.taken = o.taken := by
  cases o <;> cases o' <;> simp_all [Op.alike, Op.taken]

theorem Depths.append {ops l : List (Op A T E)} {d d' : Nat → Nat} (h : Depths ops d) (hd : ∀ q ≤ ops.length, d' q = d q)
    (hf : ∀ (i : Nat) (o : Op A T E), l[i]? = some o → o.Falls d' (ops.length + i))
    (hj : ∀ (i : Nat) (o : Op A T E) (t : Nat), l[i]? = some o → o.target = some t →
      t = maxPos ∨ t ≤ ops.length + l.length ∧ d' t + o.taken ≤ d' (ops.length + i)) : Depths (ops ++ l) d' := by
  constructor
  · intro p o hp
    by_cases hlt : p < ops.length
    · rw [List.getElem?_append_left hlt] at hp
      exact Op.falls_congr (h.falls p o hp) (hd _ (by omega)) (hd _ (by omega))
    · rw [List.getElem?_append_right (by omega)] at hp
      have := hf _ o hp
      rwa [Nat.add_sub_cancel' (by omega)] at this
  · intro p o t hp ht
    rw [List.length_append]
    by_cases hlt : p < ops.length
    · rw [List.getElem?_append_left hlt] at hp
      refine (h.jumps p o t hp ht).imp id (fun ⟨h1, h2⟩ => ⟨by omega, ?_⟩)
      rw [hd _ h1, hd _ (by omega)]
      exact h2
    · rw [List.getElem?_append_right (by omega)] at hp
      have := hj _ o t hp ht
      rwa [Nat.add_sub_cancel' (by omega)] at this

theorem Depths.redirect {ops ops' : List (Op A T E)} {d : Nat → Nat} {v only} (h : Depths ops d)
    (r : Redirected ops ops' v only) (hv : v = ops.length)
    (ho : ∀ (p : Nat) (o : Op A T E), only p → ops[p]? = some o → d ops.length + o.taken ≤ d p) : Depths ops' d := by
  subst hv
  have back : ∀ (p : Nat) (o' : Op A T E), ops'[p]? = some o' → ∃ o, ops[p]? = some o ∧ o.alike o' := by
    intro p o' hp
    have hlt := (List.getElem?_eq_some_iff.mp hp).1
    rw [r.length] at hlt
    obtain ⟨o1, h1, h2⟩ := r.alike p ops[p] (List.getElem?_eq_getElem hlt)
    rw [hp] at h1
    cases h1
    exact ⟨_, List.getElem?_eq_getElem hlt, h2⟩
  constructor
  · intro p o' hp
    obtain ⟨o, h1, h2⟩ := back p o' hp
    exact Op.alike_falls (h.falls p o h1) h2
  · intro p o' t hp ht
    rw [r.length]
    obtain ⟨o, h1, h2⟩ := back p o' hp
    by_cases hop : only p
    · rcases r.change p o' hp with h' | h'
      · exact h.jumps p o' t h' ht
      · rw [h'] at ht
        cases ht
        refine .inr ⟨Nat.le_refl _, ?_⟩
        rw [Op.alike_taken h2]
        exact ho p o hop h1
    · rw [r.same p hop] at hp
      exact h.jumps p o' t hp ht

/-- Instructions that leave the stack alone, at a depth that stays the same from here on. -/
theorem Depths.flat {ops l : List (Op A T E)} {d : Nat → Nat} {k} (h : Depths ops d) (hk : ∀ q ≥ ops.length, d q = k)
    (hl : ∀ o ∈ l, (∀ p : Nat, d p = k → d (p + 1) = k → o.Falls d p) ∧
      (∀ t, o.target = some t → t = maxPos ∨ t ≤ ops.length + l.length ∧ d t ≤ k ∧ o.taken = 0)) : Depths (ops ++ l) d := by
  refine h.append (fun _ _ => rfl) ?_ ?_
  · intro i o hi
    exact (hl o (List.mem_of_getElem? hi)).1 _ (hk _ (by omega)) (hk _ (by omega))
  · intro i o t hi ht
    refine ((hl o (List.mem_of_getElem? hi)).2 t ht).imp id (fun ⟨h1, h2, h3⟩ => ⟨h1, ?_⟩)
    rw [hk (ops.length + i) (by omega), h3]
    exact h2

/-! ## Tests -/

theorem atom_falls {t : Tok A T E} {n op n'} (h : atom t n = some (op, n')) {d : Nat → Nat} {p : Nat}
    (hd : d (p + 1) ≤ d p) : op.Falls d p := by
  unfold atom at h
  split at h <;> cases n <;> simp [Op.setNot] at h <;> (try cases h.1) <;> simpa [Op.Falls] using hd

theorem parse_depths (maxTests n0 k : Nat) (d : Nat → Nat) (hk : ∀ q ≥ n0, d q = k) (ts : List (Tok A T E))
    (ops b st isNot) (hn : n0 ≤ ops.length) (hD : Depths ops d) (hj : ∀ x ∈ b :: st, ∀ p ∈ x.jmps, n0 ≤ p ∧ TJump ops p)
    (r : List (Tok A T E) × List (Op A T E)) (h : parseLoop maxTests ts ops b st isNot = some r) :
    Depths r.2 d ∧ n0 < r.2.length := by
  have last : ∀ ops : List (Op A T E), n0 ≤ ops.length → Depths ops d → Depths (ops ++ [.jz maxPos]) d := by
    intro ops hn hD
    refine hD.flat (k := k) (fun q hq => hk q (by omega)) ?_
    simp [Op.Falls, Op.target]
    omega
  have patch : ∀ (ops : List (Op A T E)) (js : List Nat), n0 ≤ ops.length → Depths ops d → (∀ p ∈ js, n0 ≤ p ∧ TJump ops p) →
      Depths (patchTest ops js ops.length) d := by
    intro ops js hn hD hj
    refine hD.redirect (patchTest_redirected _ _ _) rfl ?_
    intro p o hp ho
    obtain ⟨h1, t, h2⟩ := hj p hp
    rw [hk _ hn, hk _ h1]
    rcases h2 with h2 | h2 <;> (rw [ho] at h2; cases h2; simp [Op.taken])
  have plain : ∀ (ops : List (Op A T E)) {t n op n'}, atom t n = some (op, n') → n0 ≤ ops.length → Depths ops d →
      Depths (ops ++ [op]) d := by
    intro ops t n op n' ha hn hD
    refine hD.flat (k := k) (fun q hq => hk q (by omega)) ?_
    intro o ho
    simp at ho
    subst ho
    refine ⟨fun p h1 h2 => atom_falls ha (by omega), ?_⟩
    intro t ht
    rw [atom_target ha] at ht
    cases ht
  fun_induction parseLoop maxTests ts ops b st isNot with
  | case2 ops b st isNot ts hc ih =>
    refine ih (by simp; omega) ?_ ?_ h
    · refine hD.flat (k := k) (fun q hq => hk q (by omega)) ?_
      intro o ho
      simp at ho
      subst ho
      split <;> simp [Op.Falls, Op.target] <;> omega
    · intro x hx p hp
      simp only [List.mem_cons] at hx
      rcases hx with rfl | hx
      · simp only [List.mem_append, List.mem_singleton] at hp
        rcases hp with hp | rfl
        · exact ⟨(hj b (by simp) p hp).1, (hj b (by simp) p hp).2.append _⟩
        · refine ⟨hn, maxPos, ?_⟩
          cases b.isAll <;> simp
      · exact ⟨(hj x (by simp [hx]) p hp).1, (hj x (by simp [hx]) p hp).2.append _⟩
  | case4 ops b st isNot ts ih => exact ih hn hD (by simpa using hj) h
  | case5 ops b st isNot ts hc ih => exact ih hn hD (by simpa using hj) h
  | case7 ops b isNot ts hc prev st ops' he =>
    simp only [Option.some.injEq] at h
    subst h
    have hl : ops'.length = ops.length := (patchTest_redirected ops.length b.jmps ops).length
    have := patch ops b.jmps hn hD (hj b (by simp))
    exact ⟨last _ (by rw [hl]; exact hn) this, by simp; omega⟩
  | case8 ops b isNot ts hc prev st ops' he ih =>
    have hl : ops'.length = ops.length := (patchTest_redirected ops.length b.jmps ops).length
    refine ih (by omega) (patch ops b.jmps hn hD (hj b (by simp))) ?_ h
    intro x hx p hp
    have := hj x (by simp only [List.mem_cons] at hx ⊢; exact .inr hx) p hp
    exact ⟨this.1, this.2.of (patchTest_redirected _ _ _)⟩
  | case9 ops b st isNot ts hc ih => exact ih hn hD hj h
  | case11 ops b st isNot hc ts ih => exact ih hn hD (by simpa using hj) h
  | case14 ops b st isNot hc ts ih => exact ih hn hD (by simpa using hj) h
  | case19 ops b st isNot t ts _ _ _ _ _ _ op n' ha ts' hx he =>
    simp only [Option.some.injEq] at h
    subst h
    exact ⟨last _ (by simp; omega) (plain ops ha hn hD), by simp; omega⟩
  | case20 ops b st isNot t ts _ _ _ _ _ _ op n' ha ts' hx he ih =>
    refine ih (by simp; omega) (plain ops ha hn hD) ?_ h
    intro x hx p hp
    simp only [List.mem_cons] at hx
    rcases hx with rfl | hx
    · exact ⟨(hj b (by simp) p hp).1, (hj b (by simp) p hp).2.append _⟩
    · exact ⟨(hj x (by simp [hx]) p hp).1, (hj x (by simp [hx]) p hp).2.append _⟩
  | _ => simp at h

/-! ## Blocks -/

theorem fepCount_cons (b : Block) (bs : List Block) : fepCount (b :: bs) = fepCount bs + if b.btype = .fep then 1 else 0 := by
  by_cases h : b.btype = .fep <;> simp [fepCount, List.countP_cons, h]

/-- The depths at the positions recorded for blocks. -/
def Deep (d : Nat → Nat) (n : Nat) : List Block → Prop
  | [] => True
  | b :: bs => (∀ p ∈ b.breakJmps, p < n ∧ fepCount bs ≤ d p) ∧ (∀ p ∈ b.ifJmps, p < n ∧ fepCount (b :: bs) ≤ d p) ∧
      (∀ prev, bs.head? = some prev → b.btype ≠ .else_ → prev.lastStart < n ∧ d prev.lastStart = fepCount (b :: bs)) ∧
      Deep d n bs

theorem Deep.mono {d d' : Nat → Nat} {n n'} (hn : n ≤ n') (hd : ∀ q < n, d' q = d q) : ∀ {bs}, Deep d n bs → Deep d' n' bs
  | [], _ => trivial
  | b :: bs, ⟨h1, h2, h3, h4⟩ => by
    refine ⟨fun p hp => ?_, fun p hp => ?_, fun prev hp ht => ?_, h4.mono hn hd⟩
    · have := h1 p hp; rw [hd p this.1]; exact ⟨by omega, this.2⟩
    · have := h2 p hp; rw [hd p this.1]; exact ⟨by omega, this.2⟩
    · have := h3 prev hp ht; rw [hd _ this.1]; exact ⟨by omega, this.2⟩

theorem fepCount_addBreak (bs : List Block) (i pos : Nat) : fepCount (addBreak bs i pos) = fepCount bs := by
  unfold addBreak
  induction bs generalizing i with
  | nil => cases i <;> rfl
  | cons b bs ih =>
    cases i with
    | zero => simp [fepCount_cons]
    | succ i =>
      have := ih i
      simp only [List.modify_succ_cons, fepCount_cons]
      omega

theorem head_addBreak {bs : List Block} {i pos : Nat} {b} (h : (addBreak bs i pos).head? = some b) :
    ∃ b', bs.head? = some b' ∧ b'.lastStart = b.lastStart := by
  cases bs with
  | nil => cases i <;> simp [addBreak] at h
  | cons c bs => cases i <;> (simp [addBreak] at h; subst h; exact ⟨_, rfl, rfl⟩)

theorem Deep.addBreak {d : Nat → Nat} {n pos : Nat} (hp : pos < n) : ∀ {bs : List Block} {i : Nat}, Deep d n bs →
    fepCount (bs.drop (i + 1)) ≤ d pos → Deep d n (addBreak bs i pos)
  | [], i, h, _ => by cases i <;> exact h
  | b :: bs, 0, ⟨h1, h2, h3, h4⟩, hd => by
    refine ⟨?_, h2, h3, h4⟩
    intro p hp'
    simp only [List.mem_append, List.mem_singleton] at hp'
    rcases hp' with hp' | rfl
    · exact h1 p hp'
    · exact ⟨hp, hd⟩
  | b :: bs, i + 1, ⟨h1, h2, h3, h4⟩, hd => by
    have e := fepCount_addBreak bs i pos
    have ih := h4.addBreak (i := i) hp hd
    show Deep d n (b :: Compile.addBreak bs i pos)
    refine ⟨by rw [e]; exact h1, by rw [fepCount_cons, e, ← fepCount_cons]; exact h2, ?_, ih⟩
    intro prev hprev ht
    obtain ⟨b', h5, h6⟩ := head_addBreak hprev
    have := h3 b' h5 ht
    rw [fepCount_cons, e, ← fepCount_cons, ← h6]
    exact this

theorem fepCount_drop (l : String) : ∀ (bs : List Block) (k i n : Nat), findLabel l bs k = some (i, n) →
    k < n ∧ fepCount (bs.drop (i + 1)) + n = fepCount bs + k
  | [], _, _, _, h => by simp [findLabel] at h
  | b :: bs, k, i, n, h => by
    rw [findLabel] at h
    rw [fepCount_cons]
    split at h
    · rename_i hb
      rw [if_pos hb]
      split at h
      · simp only [Option.some.injEq, Prod.mk.injEq] at h
        obtain ⟨rfl, rfl⟩ := h
        exact ⟨by omega, by simp; omega⟩
      · simp only [Option.map_eq_some_iff, Prod.mk.injEq, Prod.exists] at h
        obtain ⟨j, m, h, rfl, rfl⟩ := h
        have := fepCount_drop l bs (k + 1) j m h
        simp only [List.drop_succ_cons]
        omega
    · rename_i hb
      rw [if_neg hb]
      simp only [Option.map_eq_some_iff, Prod.mk.injEq, Prod.exists] at h
      obtain ⟨j, m, h, rfl, rfl⟩ := h
      have := fepCount_drop l bs k j m h
      simp only [List.drop_succ_cons]
      omega

theorem fepCount_loop : ∀ (bs : List Block) (i : Nat) (f : Bool), findLoop bs = some (i, f) →
    fepCount (bs.drop (i + 1)) + (if f then 1 else 0) = fepCount bs
  | [], _, _, h => by simp [findLoop] at h
  | b :: bs, i, f, h => by
    rw [findLoop] at h
    rw [fepCount_cons]
    split at h
    · simp only [Option.some.injEq, Prod.mk.injEq] at h
      obtain ⟨rfl, rfl⟩ := h
      simp
    · rename_i hb
      simp only [Option.map_eq_some_iff, Prod.mk.injEq, Prod.exists] at h
      obtain ⟨j, m, h, rfl, rfl⟩ := h
      have := fepCount_loop bs j m h
      have hb' : b.btype ≠ .fep := by
        intro e
        simp [Block.isLoop, e] at hb
      simp only [List.drop_succ_cons, if_neg hb']
      omega

theorem contJump_depth {d : Nat → Nat} {n : Nat} : ∀ {bs : List Block} {found t : Nat}, Deep d n bs →
    contJump bs found = some (some t) →
    (found = 1 → ∀ b, bs.head? = some b → b.lastStart < n ∧ d b.lastStart = fepCount bs) → t < n ∧ d t ≤ fepCount bs
  | [], found, t, _, hc, _ => by
    rw [contJump] at hc
    split at hc <;> simp at hc
  | b :: bs, found, t, ⟨_, _, h3, h4⟩, hc, hf => by
    rw [contJump] at hc
    split at hc
    · rename_i hw
      have := contJump_depth h4 hc (fun _ b' hb' => by
        have := h3 b' hb' (by simp [hw])
        rw [fepCount_cons, if_neg (by simp [hw])] at this
        exact this)
      rw [fepCount_cons]
      exact ⟨this.1, by omega⟩
    · split at hc
      · simp only [Option.some.injEq] at hc
        subst hc
        have := hf ‹_› b rfl
        exact ⟨this.1, by omega⟩
      · have := contJump_depth h4 hc (fun e => absurd e ‹_›)
        rw [fepCount_cons]
        exact ⟨this.1, by omega⟩

/-! ## The main loop -/

structure DInv (s : State A T E) (d : Nat → Nat) : Prop where
  depths : Depths s.ops d
  beyond : ∀ q ≥ s.ops.length, d q = fepCount s.blocks
  deep : Deep d s.ops.length s.blocks
  zero : d 0 = 0

/-- Instructions that leave the stack alone. -/
theorem DInv.plain {s : State A T E} {d l} (h : DInv s d)
    (hl : ∀ o ∈ l, (∀ p : Nat, d p = fepCount s.blocks → d (p + 1) = fepCount s.blocks → o.Falls d p) ∧
      (∀ t, o.target = some t → t = maxPos ∨ t ≤ s.ops.length + l.length ∧ d t ≤ fepCount s.blocks ∧ o.taken = 0)) :
    DInv { s with ops := s.ops ++ l } d :=
  ⟨h.depths.flat h.beyond hl, fun q hq => h.beyond q (by simp at hq; omega), h.deep.mono (by simp) (fun _ _ => rfl), h.zero⟩

/-- A jump out of `foreverypart` loops. -/
theorem DInv.leave {s : State A T E} {d n} {o : Op A T E} (h : DInv s d) (hn : 0 < n) (hle : n ≤ fepCount s.blocks)
    (ho : o = .jmp maxPos ∨ o = .ret) :
    ∃ d', DInv { s with ops := s.ops ++ [.fepPop n, o] } d' ∧ d' (s.ops.length + 1) = fepCount s.blocks - n := by
  refine ⟨fun q => if q = s.ops.length + 1 then fepCount s.blocks - n else d q, ⟨?_, ?_, ?_, ?_⟩, by simp⟩
  · have hb := h.beyond s.ops.length (Nat.le_refl _)
    refine h.depths.append (fun q hq => if_neg (by omega)) ?_ ?_
    · intro i o' hi
      match i, hi with
      | 0, hi =>
        simp at hi
        subst hi
        simp only [Op.Falls, Nat.add_zero, if_true]
        rw [if_neg (by omega), hb]
        exact ⟨hn, by omega⟩
      | 1, hi =>
        simp at hi
        subst hi
        rcases ho with rfl | rfl <;> trivial
    · intro i o' t hi ht
      match i, hi with
      | 0, hi => simp at hi; subst hi; cases ht
      | 1, hi =>
        simp at hi
        subst hi
        rcases ho with rfl | rfl <;> cases ht
        exact .inl rfl
  · intro q hq
    simp only [List.length_append, List.length_cons, List.length_nil] at hq
    simp only
    rw [if_neg (by omega)]
    exact h.beyond q (by omega)
  · exact h.deep.mono (by simp) (fun q hq => if_neg (by omega))
  · show (if _ then _ else _) = 0
    rw [if_neg (by omega)]
    exact h.zero

theorem opened_depth {lim : Limits} {s s' : State A T E} {d new} (h : openBlock lim s new = some s') (hD : Depths s.ops d)
    (hz : d 0 = 0) (hb : ∀ q ≥ s.ops.length, d q = fepCount (new :: s.blocks)) (hd : Deep d s.ops.length s.blocks)
    (hs : new.btype ≠ .else_ → 0 < s.ops.length ∧ d (s.ops.length - 1) = fepCount (new :: s.blocks)) (hbr : new.breakJmps = [])
    (hif : new.ifJmps = []) : DInv s' d := by
  unfold openBlock at h
  split at h
  · cases h
  · rename_i cur stack hst
    split at h
    · simp only [Option.some.injEq] at h
      subst h
      rw [hst] at hb hd hs
      have e : ∀ x : Block, fepCount (new :: x :: stack) = fepCount (new :: cur :: stack) ↔
          (if x.btype = .fep then 1 else 0) = (if cur.btype = .fep then 1 else 0) := by
        intro x
        simp only [fepCount_cons]
        omega
      have e1 := (e { cur with lastStart := s.ops.length - 1 }).mpr rfl
      refine ⟨hD, fun q hq => by rw [hb q hq, e1], ?_, hz⟩
      refine ⟨by simp [hbr], by simp [hif], ?_, hd.1, ?_, hd.2.2.1, hd.2.2.2⟩
      · intro prev hp ht
        simp only [List.head?_cons, Option.some.injEq] at hp
        subst hp
        have := hs ht
        exact ⟨by simp only; omega, by rw [e1]; exact this.2⟩
      · exact hd.2.1
    · cases h

theorem closed_depth {ts : List (Tok A T E)} {s s' : State A T E} {d clear next} (h : Inv (.cclose clear :: ts) s)
    (hI : DInv s d) (hc : closeBlock s clear next = some s') : ∃ d', DInv s' d' := by
  obtain ⟨cur, stack, hs⟩ := h.cons
  cases stack with
  | nil => simp [closeBlock, hs] at hc
  | cons prev stack =>
    have hN := h.nested
    rw [hs] at hN
    have hst := hN.2.1
    have hown := hN.1
    have hprev := hN.2.2.2.own prev (by simp)
    have hI' := hI.plain (l := clear.toList.map .plain) (by
      intro o ho
      simp only [List.mem_map] at ho
      obtain ⟨a, _, rfl⟩ := ho
      exact ⟨fun p h1 h2 => by simp only [Op.Falls]; omega, fun t ht => by cases ht⟩)
    have hE : Ext s.ops (s.ops ++ clear.toList.map .plain) := Ext.append _ _
    simp only [closeBlock, hs] at hc
    obtain ⟨hD, hB, hDp, hz⟩ := hI'
    simp only at hD hB hDp
    generalize ho : s.ops ++ List.map Op.plain clear.toList = ops at hc hD hB hDp hE
    rw [hs] at hB hDp
    obtain ⟨hd1, hd2, hd3, hd4⟩ := hDp
    have jmpAt : ∀ p o, Jump ops p → ops[p]? = some o → o.taken = 0 := by
      rintro p o ⟨t, h1⟩ h2
      rw [h2] at h1
      cases h1
      rfl
    -- the end of a loop, `k` being the depth outside
    have loop : ∀ bt, cur.btype = bt → (bt = .fep ∨ bt = .while_) →
        ∃ d', DInv ⟨patchJmp (patchStart (ops ++ [.jmp prev.lastStart]) bt prev.lastStart
          (ops ++ [.jmp prev.lastStart] : List (Op A T E)).length) cur.breakJmps
          (ops ++ [.jmp prev.lastStart] : List (Op A T E)).length, prev :: stack, .root⟩ d' := by
      intro bt hbt hor
      obtain ⟨h1, h2⟩ := hd3 prev rfl (by rw [hbt]; rcases hor with rfl | rfl <;> simp)
      have hst' : Start ops bt prev.lastStart := by rw [← hbt]; exact hst.ext hE
      have hout : fepCount (prev :: stack) ≤ fepCount (cur :: prev :: stack) := by
        rw [fepCount_cons cur]; omega
      refine ⟨fun q => if q ≤ ops.length then d q else fepCount (prev :: stack), ?_⟩
      generalize hd' : (fun q => if q ≤ ops.length then d q else fepCount (prev :: stack)) = d'
      have le : ∀ q ≤ ops.length, d' q = d q := by intro q hq; rw [← hd']; exact if_pos hq
      have gt : ∀ q, ops.length < q → d' q = fepCount (prev :: stack) := by
        intro q hq; rw [← hd']; exact if_neg (by omega)
      have a1 : Depths (ops ++ [.jmp prev.lastStart]) d' := by
        refine hD.append le ?_ ?_
        · intro i o hi
          have : i = 0 := by
            have := (List.getElem?_eq_some_iff.mp hi).1
            simpa using this
          subst this
          simp at hi
          subst hi
          trivial
        · intro i o t hi ht
          have : i = 0 := by
            have := (List.getElem?_eq_some_iff.mp hi).1
            simpa using this
          subst this
          simp at hi
          subst hi
          simp only [Op.target, Option.some.injEq] at ht
          subst ht
          refine .inr ⟨by omega, ?_⟩
          rw [le _ (by omega), le _ (by omega), h2, hB _ (by omega)]
          exact Nat.le_refl _
      have r1 := patchStart_redirected (ops ++ [.jmp prev.lastStart]) bt prev.lastStart
        (ops ++ [.jmp prev.lastStart] : List (Op A T E)).length
      have a2 := a1.redirect r1 rfl (by
        intro p o hp hop
        subst hp
        rw [gt _ (by simp), le _ (by omega), h2, fepCount_cons cur]
        rw [List.getElem?_append_left h1] at hop
        rcases hor with rfl | rfl
        · obtain ⟨t, h3⟩ := hst'
          rw [hop] at h3
          cases h3
          simp [hbt, Op.taken]
        · obtain ⟨e, t, h3⟩ := hst'
          rw [hop] at h3
          cases h3
          simp [Op.taken])
      have r2 := patchJmp_redirected (ops ++ [.jmp prev.lastStart] : List (Op A T E)).length cur.breakJmps
        (patchStart (ops ++ [.jmp prev.lastStart]) bt prev.lastStart (ops ++ [.jmp prev.lastStart] : List (Op A T E)).length)
      have a3 := a2.redirect r2 r1.length.symm (by
        intro p o hp hop
        obtain ⟨h3, h4⟩ := hd1 p hp
        rw [r1.length, gt _ (by simp), le _ (by omega)]
        have hJ : Jump ops p := (hown.brk p hp).ext hE
        obtain ⟨t, hJ⟩ := (hJ.append [.jmp prev.lastStart]).of r1
        rw [hop] at hJ
        cases hJ
        exact h4)
      have hlen := r2.length.trans r1.length
      refine ⟨a3, ?_, ?_, ?_⟩
      · intro q hq
        simp only at hq
        rw [hlen] at hq
        simp at hq
        exact gt q (by omega)
      · simp only
        rw [hlen]
        exact hd4.mono (by simp) (fun q hq => le q (by omega))
      · rw [le 0 (by omega)]; exact hz
    have outside : cur.btype ≠ .fep → fepCount (cur :: prev :: stack) = fepCount (prev :: stack) := by
      intro hb
      rw [fepCount_cons cur, if_neg hb]
      rfl
    -- the end of the block of a test
    have prevIf : ∀ js, fepCount ({ prev with ifJmps := js } :: stack) = fepCount (prev :: stack) := by
      intro js
      simp only [fepCount_cons]
    have test : ∀ bt, cur.btype = bt → (bt = .if_ ∨ bt = .elsif) → ∀ js,
        (∀ p ∈ js, p ∈ prev.ifJmps) →
        DInv ⟨patchJmp (patchStart ops bt prev.lastStart ops.length) js ops.length,
          { prev with ifJmps := [] } :: stack, .root⟩ d := by
      intro bt hbt hor js hjs
      have hne : bt ≠ .fep := by rcases hor with rfl | rfl <;> simp
      obtain ⟨h1, h2⟩ := hd3 prev rfl (by rw [hbt]; rcases hor with rfl | rfl <;> simp)
      have hst' : Start ops bt prev.lastStart := by rw [← hbt]; exact hst.ext hE
      have ho' := outside (by rw [hbt]; exact hne)
      have r1 := patchStart_redirected ops bt prev.lastStart ops.length
      have a1 := hD.redirect r1 rfl (by
        intro p o hp hop
        subst hp
        rw [h2, hB _ (Nat.le_refl _)]
        rcases hor with rfl | rfl <;>
          (obtain ⟨t, h3⟩ := hst'; rw [hop] at h3; cases h3; simp [Op.taken]))
      have r2 := patchJmp_redirected ops.length js (patchStart ops bt prev.lastStart ops.length)
      have a2 := a1.redirect r2 r1.length.symm (by
        intro p o hp hop
        have hd4' := hd4.2.1 p (hjs p hp)
        rw [r1.length, hB _ (Nat.le_refl _), ho']
        have hJ : Jump ops p := (hprev.ifs p (hjs p hp)).ext hE
        obtain ⟨t, hJ⟩ := hJ.of r1
        rw [hop] at hJ
        cases hJ
        exact hd4'.2)
      have hlen := r2.length.trans r1.length
      refine ⟨a2, ?_, ?_, hz⟩
      · intro q hq
        simp only at hq
        rw [hlen] at hq
        exact (hB q hq).trans (ho'.trans (prevIf _).symm)
      · simp only
        rw [hlen]
        exact ⟨hd4.1, by simp, hd4.2.2.1, hd4.2.2.2⟩
    have more : ∀ bt, cur.btype = bt → (bt = .if_ ∨ bt = .elsif) →
        DInv ⟨patchStart (ops ++ [.jmp maxPos]) bt prev.lastStart (ops ++ [.jmp maxPos] : List (Op A T E)).length,
          { prev with ifJmps := prev.ifJmps ++ [ops.length] } :: stack, bt⟩ d := by
      intro bt hbt hor
      have hne : bt ≠ .fep := by rcases hor with rfl | rfl <;> simp
      obtain ⟨h1, h2⟩ := hd3 prev rfl (by rw [hbt]; rcases hor with rfl | rfl <;> simp)
      have hst' : Start ops bt prev.lastStart := by rw [← hbt]; exact hst.ext hE
      have ho' := outside (by rw [hbt]; exact hne)
      have a0 : Depths (ops ++ [.jmp maxPos]) d := hD.flat hB (by simp [Op.Falls, Op.target])
      have r1 := patchStart_redirected (ops ++ [.jmp maxPos]) bt prev.lastStart
        (ops ++ [.jmp maxPos] : List (Op A T E)).length
      have a1 := a0.redirect r1 rfl (by
        intro p o hp hop
        subst hp
        rw [h2, hB _ (by simp)]
        rw [List.getElem?_append_left h1] at hop
        rcases hor with rfl | rfl <;>
          (obtain ⟨t, h3⟩ := hst'; rw [hop] at h3; cases h3; simp [Op.taken]))
      refine ⟨a1, ?_, ?_, hz⟩
      · intro q hq
        simp only at hq
        rw [r1.length] at hq
        simp at hq
        exact (hB q (by omega)).trans (ho'.trans (prevIf _).symm)
      · simp only
        rw [r1.length]
        have hd5 := hd4.mono (d' := d) (n' := (ops ++ [Op.jmp maxPos] : List (Op A T E)).length) (by simp) (fun _ _ => rfl)
        refine ⟨hd5.1, ?_, hd5.2.2.1, hd5.2.2.2⟩
        intro p hp
        simp only [List.mem_append, List.mem_singleton] at hp
        rcases hp with hp | rfl
        · exact hd5.2.1 p hp
        · rw [hB _ (Nat.le_refl _), ho', prevIf]
          simp
    cases hb : cur.btype with
    | root => rw [hb] at hst; exact hst.elim
    | else_ =>
      simp only [hb, Option.some.injEq] at hc
      subst hc
      have ho' := outside (by simp [hb])
      have r := patchJmp_redirected ops.length prev.ifJmps ops
      have a := hD.redirect r rfl (by
        intro p o hp hop
        rw [jmpAt p o ((hprev.ifs p hp).ext hE) hop, hB _ (Nat.le_refl _), ho']
        exact (hd4.2.1 p hp).2)
      refine ⟨d, a, ?_, ?_, hz⟩
      · intro q hq
        simp only at hq
        rw [r.length] at hq
        exact (hB q hq).trans (ho'.trans (prevIf _).symm)
      · simp only
        rw [r.length]
        exact ⟨hd4.1, by simp, hd4.2.2.1, hd4.2.2.2⟩
    | while_ =>
      simp only [hb, Option.some.injEq] at hc
      subst hc
      exact loop _ hb (.inr rfl)
    | fep =>
      simp only [hb, Option.some.injEq] at hc
      subst hc
      exact loop _ hb (.inl rfl)
    | if_ =>
      simp only [hb] at hc
      cases next with
      | true =>
        simp only [if_true, Option.some.injEq] at hc
        subst hc
        exact ⟨d, more _ hb (.inl rfl)⟩
      | false =>
        simp only [Bool.false_eq_true, if_false, Option.some.injEq] at hc
        subst hc
        exact ⟨d, test _ hb (.inl rfl) _ (fun _ h => h)⟩
    | elsif =>
      simp only [hb] at hc
      cases next with
      | true =>
        simp only [if_true, Option.some.injEq] at hc
        subst hc
        exact ⟨d, more _ hb (.inr rfl)⟩
      | false =>
        simp only [Bool.false_eq_true, if_false, Option.some.injEq] at hc
        subst hc
        exact ⟨d, test _ hb (.inr rfl) _ (fun _ h => h)⟩

theorem round_depth {lim : Limits} {s s' : State A T E} {t : Tok A T E} {ts ts' d} (h : Inv (t :: ts) s) (hI : DInv s d)
    (hr : round lim s t ts = some (ts', s')) : ∃ d', DInv s' d' := by
  have noTarget : ∀ {l : List (Op A T E)}, (∀ o ∈ l, (∀ p : Nat, d (p + 1) ≤ d p → o.Falls d p) ∧ ∀ t, o.target = some t → t = maxPos) →
      DInv { s with ops := s.ops ++ l } d := by
    intro l hl
    refine hI.plain (fun o ho => ⟨fun p h1 h2 => (hl o ho).1 p (by omega), fun t ht => .inl ((hl o ho).2 t ht)⟩)
  have tests : ∀ {r}, parseTest lim.tests ts s.ops = some r → Depths r.2 d ∧ s.ops.length < r.2.length := by
    intro r hp
    exact parse_depths lim.tests s.ops.length _ d hI.beyond ts s.ops _ _ _ (Nat.le_refl _) hI.depths (by simp) r hp
  have flat : ∀ b : Block, b.btype ≠ .fep → fepCount (b :: s.blocks) = fepCount s.blocks := by
    intro b hb
    rw [fepCount_cons, if_neg hb]
    rfl
  cases t <;> simp only [round] at hr
  case kif =>
    split at hr
    · rename_i ts1 ops1 hp
      simp only [Option.map_eq_some_iff, Prod.mk.injEq] at hr
      obtain ⟨s1, ho, rfl, rfl⟩ := hr
      obtain ⟨h1, h2⟩ := tests hp
      simp only at h1 h2
      have e : fepCount (s.blocks.modify 0 fun b => { b with ifJmps := [] }) = fepCount s.blocks := by
        cases s.blocks <;> simp [fepCount_cons]
      have e' : fepCount (Block.new .if_ :: s.blocks.modify 0 fun b => { b with ifJmps := [] }) = fepCount s.blocks := by
        rw [fepCount_cons, e]; rfl
      refine ⟨d, opened_depth ho h1 hI.zero ?_ ?_ ?_ rfl rfl⟩
      · intro q hq
        simp only at hq ⊢
        rw [hI.beyond q (by omega), e']
      · have := hI.deep.mono (d' := d) (n' := ops1.length) (by omega) (fun _ _ => rfl)
        cases hb : s.blocks with
        | nil => trivial
        | cons b bs =>
          rw [hb] at this
          exact ⟨this.1, by simp, this.2.2.1, this.2.2.2⟩
      · intro _
        simp only
        rw [hI.beyond _ (by omega), e']
        exact ⟨by omega, rfl⟩
    · cases hr
  case kelsif =>
    split at hr
    · split at hr
      · rename_i ts1 ops1 hp
        simp only [Option.map_eq_some_iff, Prod.mk.injEq] at hr
        obtain ⟨s1, ho, rfl, rfl⟩ := hr
        obtain ⟨h1, h2⟩ := tests hp
        simp only at h1 h2
        have e' := flat (Block.new .elsif) (by simp [Block.new])
        refine ⟨d, opened_depth ho h1 hI.zero ?_ (hI.deep.mono (Nat.le_of_lt h2) (fun _ _ => rfl)) ?_ rfl rfl⟩
        · intro q hq
          simp only at hq ⊢
          rw [hI.beyond q (by omega), e']
        · intro _
          simp only
          rw [hI.beyond _ (by omega), e']
          exact ⟨by omega, rfl⟩
      · cases hr
    · cases hr
  case kelse =>
    split at hr
    · split at hr
      · simp only [Option.map_eq_some_iff, Prod.mk.injEq] at hr
        obtain ⟨s1, ho, rfl, rfl⟩ := hr
        have e' := flat (Block.new .else_) (by simp [Block.new])
        refine ⟨d, opened_depth ho hI.depths hI.zero ?_ hI.deep (fun h => absurd rfl h) rfl rfl⟩
        intro q hq
        rw [hI.beyond q hq, e']
      · cases hr
    · cases hr
  case kwhile e =>
    split at hr
    · simp only [Option.map_eq_some_iff, Prod.mk.injEq] at hr
      obtain ⟨s1, ho, rfl, rfl⟩ := hr
      have e' := flat (Block.new .while_) (by simp [Block.new])
      have h1 := noTarget (l := [.loop e maxPos]) (by simp [Op.Falls, Op.target])
      refine ⟨d, opened_depth ho h1.depths hI.zero ?_ h1.deep ?_ rfl rfl⟩
      · intro q hq
        simp only at hq ⊢
        rw [h1.beyond q hq, e']
      · intro _
        simp only
        rw [hI.beyond _ (by simp), e']
        exact ⟨by simp, rfl⟩
    · cases hr
  case kfep l =>
    split at hr
    · cases hr
    · split at hr
      · cases hr
      · split at hr
        · simp only [Option.map_eq_some_iff, Prod.mk.injEq] at hr
          obtain ⟨s1, ho, rfl, rfl⟩ := hr
          have e' : fepCount (Block.new .fep l :: s.blocks) = fepCount s.blocks + 1 := by
            rw [fepCount_cons]; simp [Block.new]
          generalize hd' : (fun q => if q ≤ s.ops.length then d q else fepCount s.blocks + 1) = d'
          have le : ∀ q ≤ s.ops.length, d' q = d q := by intro q hq; rw [← hd']; exact if_pos hq
          have gt : ∀ q, s.ops.length < q → d' q = fepCount s.blocks + 1 := by
            intro q hq; rw [← hd']; exact if_neg (by omega)
          have hb := hI.beyond s.ops.length (Nat.le_refl _)
          refine ⟨d', opened_depth ho ?_ (by rw [le 0 (by omega)]; exact hI.zero) ?_
            (hI.deep.mono (by simp) (fun q hq => le q (by omega))) ?_ rfl rfl⟩
          · refine hI.depths.append le ?_ ?_
            · intro i o hi
              match i, hi with
              | 0, hi =>
                simp at hi
                subst hi
                simp only [Op.Falls, Nat.add_zero]
                rw [gt _ (by omega), le _ (by omega), hb]
              | 1, hi =>
                simp at hi
                subst hi
                simp only [Op.Falls]
                rw [gt _ (by omega), gt _ (by omega)]
                exact ⟨by omega, Nat.le_refl _⟩
            · intro i o t hi ht
              match i, hi with
              | 0, hi => simp at hi; subst hi; cases ht
              | 1, hi => simp at hi; subst hi; cases ht; exact .inl rfl
          · intro q hq
            simp at hq
            rw [gt q (by omega)]
            exact e'.symm
          · intro _
            simp only [List.length_append, List.length_cons, List.length_nil]
            rw [gt _ (by omega), e']
            exact ⟨by omega, rfl⟩
        · cases hr
  case kbreak l =>
    have leave : ∀ {i n}, 0 < n → fepCount (s.blocks.drop (i + 1)) + n = fepCount s.blocks →
        ∃ d', DInv { s with ops := s.ops ++ [.fepPop n, .jmp maxPos], blocks := addBreak s.blocks i (s.ops.length + 1) } d' := by
      intro i n hn he
      obtain ⟨d', h1, h2⟩ := hI.leave (n := n) hn (by omega) (.inl rfl)
      refine ⟨d', h1.depths, fun q hq => ?_, h1.deep.addBreak (by simp) (by rw [h2]; simp only; omega), h1.zero⟩
      rw [h1.beyond q hq, fepCount_addBreak]
    cases l with
    | some l =>
      simp only at hr
      split at hr
      · cases hr
      · rename_i i n hf
        simp only [Option.some.injEq, Prod.mk.injEq] at hr
        obtain ⟨_, rfl⟩ := hr
        have := fepCount_drop l _ _ _ _ hf
        exact leave this.1 this.2
    | none =>
      simp only at hr
      split at hr
      · cases hr
      · rename_i i hf
        simp only [Option.some.injEq, Prod.mk.injEq] at hr
        obtain ⟨_, rfl⟩ := hr
        exact leave (by omega) (fepCount_loop _ _ _ hf)
      · rename_i i hf
        simp only [Option.some.injEq, Prod.mk.injEq] at hr
        obtain ⟨_, rfl⟩ := hr
        have h1 := noTarget (l := [.jmp maxPos]) (by simp [Op.Falls, Op.target])
        have h2 := fepCount_loop _ _ _ hf
        refine ⟨d, h1.depths, fun q hq => ?_, h1.deep.addBreak (by simp) ?_, h1.zero⟩
        · rw [h1.beyond q hq, fepCount_addBreak]
        · rw [hI.beyond _ (Nat.le_refl _)]
          simp only at h2 ⊢
          simp at h2
          omega
  case kcont =>
    split at hr
    · cases hr
    · simp only [Option.some.injEq, Prod.mk.injEq] at hr
      obtain ⟨_, rfl⟩ := hr
      exact ⟨d, hI⟩
    · rename_i q hq
      simp only [Option.some.injEq, Prod.mk.injEq] at hr
      obtain ⟨_, rfl⟩ := hr
      have := contJump_depth hI.deep hq (by simp)
      refine ⟨d, hI.plain ?_⟩
      intro o ho
      simp at ho
      subst ho
      refine ⟨fun _ _ _ => trivial, ?_⟩
      intro t ht
      cases ht
      exact .inr ⟨by omega, this.2, rfl⟩
  case kret =>
    simp only [Option.some.injEq, Prod.mk.injEq] at hr
    obtain ⟨_, rfl⟩ := hr
    by_cases hn : 0 < fepCount s.blocks
    · obtain ⟨d', h1, _⟩ := hI.leave (o := .ret) hn (Nat.le_refl _) (.inr rfl)
      refine ⟨d', ?_⟩
      simpa [if_pos hn] using h1
    · have := noTarget (l := [.ret]) (by simp [Op.Falls, Op.target])
      refine ⟨d, ?_⟩
      simpa [if_neg hn] using this
  case keval e =>
    simp only [Option.some.injEq, Prod.mk.injEq] at hr
    obtain ⟨_, rfl⟩ := hr
    exact ⟨d, noTarget (by simp [Op.Falls, Op.target])⟩
  case act is =>
    simp only [Option.some.injEq, Prod.mk.injEq] at hr
    obtain ⟨_, rfl⟩ := hr
    refine ⟨d, noTarget ?_⟩
    intro o ho
    simp only [List.mem_map] at ho
    obtain ⟨a, _, rfl⟩ := ho
    exact ⟨fun _ h => h, fun _ h => by cases h⟩
  case vac t a =>
    simp only [Option.some.injEq, Prod.mk.injEq] at hr
    obtain ⟨_, rfl⟩ := hr
    refine ⟨d, hI.plain ?_⟩
    intro o ho
    simp only [List.mem_cons, List.not_mem_nil, or_false] at ho
    rcases ho with rfl | rfl | rfl
    · exact ⟨fun p h1 h2 => by simp only [Op.Falls]; omega, fun _ h => by cases h⟩
    · refine ⟨fun p h1 h2 => by simp only [Op.Falls]; omega, ?_⟩
      intro t ht
      cases ht
      exact .inr ⟨by simp, by rw [hI.beyond _ (by omega)], rfl⟩
    · exact ⟨fun p h1 h2 => by simp only [Op.Falls]; omega, fun _ h => by cases h⟩
  case cclose clear =>
    simp only [Option.map_eq_some_iff, Prod.mk.injEq] at hr
    obtain ⟨s1, ho, rfl, rfl⟩ := hr
    exact closed_depth h hI ho
  all_goals cases hr

theorem rounds_depth {lim : Limits} : ∀ (n : Nat) (ts : List (Tok A T E)) (s : State A T E) (ops d),
    Inv ts s → DInv s d → rounds lim n ts s = some ops → ∃ d', Depths ops d' ∧ d' 0 = 0
  | n, [], s, ops, d, _, hI, hr => by
    have e : s.blocks.length = 1 ∧ s.ops = ops := by
      cases n <;> simpa [rounds] using hr
    exact ⟨d, e.2 ▸ hI.depths, hI.zero⟩
  | 0, _ :: _, _, _, _, _, _, hr => by simp [rounds] at hr
  | n + 1, t :: ts, s, ops, d, h, hI, hr => by
    rw [rounds] at hr
    split at hr
    · cases hr
    · rename_i ts' s' h1
      obtain ⟨d', hI'⟩ := round_depth h hI h1
      exact rounds_depth n ts' s' ops d' (round_inv h h1) hI' hr

/-- For every script the compiler accepts, the positions can be given numbers of `foreverypart` loops. -/
theorem compiled_depth {lim : Limits} {ts : List (Tok A T E)} {ops : List (Op A T E)} (h : compile lim ts = some ops) :
    ∃ d, Depths ops d ∧ d 0 = 0 :=
  rounds_depth _ _ _ _ (fun _ => 0) (inv_start ts)
    ⟨⟨by simp, by simp⟩, fun _ _ => rfl, ⟨by simp [Block.new], by simp [Block.new], by simp, trivial⟩, rfl⟩ h

end Sieve.Compile
