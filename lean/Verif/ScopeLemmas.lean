import Verif.ScopeModel

/-!
# C22: the language with one storage cell per variable, and how it matches the slots
-/

namespace Sieve.Scope

/-! ## Specification: block-structured scopes, a cell for every variable -/

/-- The variables of a script: those declared in a block (or at the outermost level), and those declared by `:local`
inside a block, which belong to the whole script; numbered in the order of their declarations. -/
inductive Id where
  | own (n : Nat)
  | outer (n : Nat)
deriving DecidableEq

/-- What is in scope: the variables of the enclosing blocks, innermost first. -/
structure Sp where
  scopes : List (List (Name × Id))
  globals : List Name
  own : Nat
  outer : Nat

/-- The innermost variable of that name, whatever the case of its letters. -/
def lookup (sp : Sp) (n : Name) : Option Id :=
  sp.scopes.findSome? fun b => (b.find? fun e => e.1 = ascii n).map Prod.snd

def Sp.declare (sp : Sp) (x : Var) (asLocal : Bool) : Ref Id × Sp :=
  match x with
  | .global n => (.glob (ascii n), sp)
  | .plain n =>
    if ascii n ∈ sp.globals then (.glob (ascii n), sp)
    else
      match lookup sp n with
      | some d => (.loc d, sp)
      | none =>
        match sp.scopes with
        | [] => (.none, sp)
        | b :: bs =>
          if asLocal = true ∧ bs ≠ [] then
            (.loc (.outer sp.outer), { sp with scopes := b :: addOuter (ascii n, .outer sp.outer) bs, outer := sp.outer + 1 })
          else (.loc (.own sp.own), { sp with scopes := ((ascii n, .own sp.own) :: b) :: bs, own := sp.own + 1 })

def Sp.use (sp : Sp) (x : Var) : Ref Id :=
  match x with
  | .global n => .glob (ascii n)
  | .plain n =>
    if ascii n ∈ sp.globals then .glob (ascii n)
    else
      match lookup sp n with
      | some d => .loc d
      | none => .none

def Sp.uses (sp : Sp) (us : List (Use Var)) : List (Use (Ref Id)) := us.map fun u => ⟨sp.use u.ref, u.mapped⟩

def Sp.open (sp : Sp) : Sp := { sp with scopes := [] :: sp.scopes }

def Sp.close (sp : Sp) : List Id × Sp :=
  ((sp.scopes.headD []).map Prod.snd, { sp with scopes := sp.scopes.tail })

/-- The script with every name replaced by the variable it refers to, and the variables of a block at its end. -/
def specify {W V : Type} : Stmt W V → Sp → Option (Code W V (Ref Id) (List Id) × Sp)
  | .skip, sp => some (.skip, sp)
  | .seq a b, sp => do
    let (a, sp) ← specify a sp
    let (b, sp) ← specify b sp
    return (.seq a b, sp)
  | .set x asLocal us f, sp =>
    let d := sp.declare x asLocal
    some (.set d.1 asLocal (d.2.uses us) f, d.2)
  | .act us f, sp => some (.act (sp.uses us) f, sp)
  | .global n, sp =>
    if (lookup sp n).isSome then none
    else some (.skip, { sp with globals := ascii n :: sp.globals })
  | .ite us g a _ b _, sp => do
    let us := sp.uses us
    let (a, sp) ← specify a sp.open
    let (ka, sp) := sp.close
    let (b, sp) ← specify b sp.open
    let (kb, sp) := sp.close
    return (.ite us g a ka b kb, sp)
  | .loop us g a _, sp => do
    let us := sp.uses us
    let (a, sp) ← specify a sp.open
    let (ka, sp) := sp.close
    return (.loop us g a ka, sp)
  | .exit again, sp => some (.exit again, sp)

def Sp.new : Sp := ⟨[[]], [], 0, 0⟩

/-- A cell for every variable. -/
structure Cells (V : Type) where
  vars : Id → V
  globals : Name → V

def cells {V : Type} (empty : V) : Memory (Cells V) V (Ref Id) (List Id) where
  get m
    | .loc d => m.vars d
    | .glob n => m.globals n
    | .none => empty
  put m r v :=
    match r with
    | .loc d => { m with vars := fun k => if k = d then v else m.vars k }
    | .glob n => { m with globals := setGlobal m.globals n v }
    | .none => m
  drop m ks := { m with vars := fun k => if k ∈ ks then empty else m.vars k }

/-- What a script means: every variable has a cell of its own, which is empty at first and whenever its block is
left. -/
def meaning {W V : Type} (empty : V) (fuel : Nat) (s : Stmt W V) (w : W) (g : Name → V) : Option (W × (Name → V)) :=
  match specify s Sp.new with
  | none => none
  | some (c, _) => (run (cells empty) true fuel c w ⟨fun _ => empty, g⟩).map fun r => (r.1, r.2.1.globals)

/-! ## Matching code -/

section Match
variable {W V : Type}

/-- Slot of a variable, where `L` are the variables of the open blocks. -/
def Loc (nl : Nat) (L : List Nat) (id : Nat) : Id → Prop
  | .own d => L[id]? = some d
  | .outer k => id = top - k ∧ k < nl

/-- The same after `map_local_vars`. -/
def Placed (nv nl : Nat) (L : List Nat) (id : Nat) : Id → Prop
  | .own d => L[id]? = some d
  | .outer k => id = nv + k ∧ k < nl

def RefM (P : List Nat → Nat → Id → Prop) (L : List Nat) : Ref Nat → Ref Id → Prop
  | .loc id, .loc d => P L id d
  | .glob n, .glob n' => n = n'
  | .none, .none => True
  | _, _ => False

def UseM (P : List Nat → Nat → Id → Prop) (L : List Nat) (u : Use (Ref Nat)) (u' : Use (Ref Id)) : Prop :=
  RefM P L u.ref u'.ref ∧ u.mapped = u'.mapped

/-- What a block clears: the slots of its variables. -/
def Ends (L M : List Nat) (k : Option Clear) (ks : List Id) : Prop :=
  k = (if M = [] then none else some ⟨L.length, M.length⟩) ∧ ∀ d, d ∈ ks ↔ ∃ n ∈ M, d = .own n

/-- Does the code contain a `break` or `continue` for a loop outside it? -/
def exits {R K : Type} : Code W V R K → Bool
  | .seq a b => exits a || exits b
  | .ite _ _ a _ b _ => exits a || exits b
  | .exit _ => true
  | _ => false

/-- `Matches P nv L c c' L'`: `c` (with slots) corresponds to `c'` (with variables), where the variables `L` are in
the slots `0 .. L.length` before and the variables `L'` after it, and never more than `nv`. -/
inductive Matches (P : List Nat → Nat → Id → Prop) (nv : Nat) :
    List Nat → Code W V (Ref Nat) (Option Clear) → Code W V (Ref Id) (List Id) → List Nat → Prop where
  | skip {L} : Matches P nv L .skip .skip L
  | exit {L e} : Matches P nv L (.exit e) (.exit e) L
  | seq {L L1 L2 a b a' b'} : Matches P nv L a a' L1 → Matches P nv L1 b b' L2 →
      Matches P nv L (.seq a b) (.seq a' b') L2
  | set {L L' x x' l us us' f} : (L' = L ∨ ∃ d, d ∉ L ∧ L' = L ++ [d]) → L'.length ≤ nv → RefM P L' x x' →
      List.Forall₂ (UseM P L') us us' → Matches P nv L (.set x l us f) (.set x' l us' f) L'
  | act {L us us' f} : List.Forall₂ (UseM P L) us us' →
      Matches P nv L (.act us f) (.act us' f) L
  | ite {L A B us us' g a a' b b' ka ka' kb kb'} : List.Forall₂ (UseM P L) us us' →
      Matches P nv L a a' (L ++ A) → Ends L A ka ka' → Matches P nv L b b' (L ++ B) → Ends L B kb kb' →
      Matches P nv L (.ite us g a ka b kb) (.ite us' g a' ka' b' kb') L
  | loop {L A us us' g a a' ka ka'} : List.Forall₂ (UseM P L) us us' →
      Matches P nv L a a' (L ++ A) → Ends L A ka ka' →
      Matches P nv L (.loop us g a ka) (.loop us' g a' ka') L

theorem matches_prefix {P nv L c c' L'} (h : Matches (W := W) (V := V) P nv L c c' L') : L <+: L' := by
  induction h with
  | seq _ _ i1 i2 => exact i1.trans i2
  | set h _ _ _ =>
    rcases h with rfl | ⟨d, _, rfl⟩
    · exact List.prefix_rfl
    · exact List.prefix_append _ _
  | _ => exact List.prefix_rfl

/-! ## Execution -/

/-- The slots hold the cells. -/
structure Same (empty : V) (nv nl : Nat) (L : List Nat) (m : Slots V) (m' : Cells V) : Prop where
  globals : m.globals = m'.globals
  len : m.locals.length = nv + nl
  nodup : L.Nodup
  fits : L.length ≤ nv
  own : ∀ (i d : Nat), L[i]? = some d → m.locals[i]? = some (m'.vars (.own d))
  free : ∀ i : Nat, L.length ≤ i → i < nv → m.locals[i]? = some empty
  outer : ∀ k : Nat, k < nl → m.locals[nv + k]? = some (m'.vars (.outer k))
  rest : ∀ d : Nat, d ∉ L → m'.vars (.own d) = empty

theorem same_get {empty : V} {nv nl L m m'} (h : Same empty nv nl L m m') {r r'} (hr : RefM (Placed nv nl) L r r') :
    (slots empty).get m r = (cells empty).get m' r' := by
  cases r <;> cases r' <;> simp only [RefM] at hr
  · rename_i id d
    simp only [slots, cells]
    cases d with
    | own d => rw [h.own id d hr]
    | outer k =>
      obtain ⟨rfl, hk⟩ := hr
      rw [h.outer k hk]
  · subst hr
    simp only [slots, cells, h.globals]
  · rfl

theorem same_gets {empty : V} {nv nl L m m'} (h : Same empty nv nl L m m') {us us'}
    (hr : List.Forall₂ (UseM (Placed nv nl) L) us us') :
    us.map (fun u => (slots empty).get m u.ref) = us'.map (fun u => (cells empty).get m' u.ref) := by
  induction hr with
  | nil => rfl
  | cons h1 _ ih => simp only [List.map_cons, ih, same_get h h1.1]

/-- Declaring a variable changes nothing. -/
theorem same_grow {empty : V} {nv nl L m m'} (h : Same empty nv nl L m m') {L'} (hL : L' = L ∨ ∃ d, d ∉ L ∧ L' = L ++ [d])
    (hn : L'.length ≤ nv) : Same empty nv nl L' m m' := by
  rcases hL with rfl | ⟨d, hd, rfl⟩
  · exact h
  · refine ⟨h.globals, h.len, ?_, hn, ?_, ?_, h.outer, ?_⟩
    · rw [List.nodup_append]
      refine ⟨h.nodup, by simp, ?_⟩
      intro a ha b hb
      simp only [List.mem_singleton] at hb
      subst hb
      rintro rfl
      exact hd ha
    · intro i d' hi
      by_cases hlt : i < L.length
      · rw [List.getElem?_append_left hlt] at hi
        exact h.own i d' hi
      · rw [List.getElem?_append_right (by omega)] at hi
        have hi0 : i - L.length = 0 := by
          by_contra hne
          rw [List.getElem?_eq_none (by simp; omega)] at hi
          cases hi
        rw [hi0] at hi
        simp only [List.getElem?_cons_zero, Option.some.injEq] at hi
        subst hi
        rw [h.free i (by omega) (by simp at hn; omega), h.rest _ hd]
    · intro i h1 h2
      simp only [List.length_append, List.length_singleton] at h1
      exact h.free i (by omega) h2
    · intro d' hd'
      exact h.rest d' (by simp at hd'; exact hd'.1)

theorem same_put {empty : V} {nv nl L m m'} (h : Same empty nv nl L m m') {r r'} (hr : RefM (Placed nv nl) L r r') (v : V) :
    Same empty nv nl L ((slots empty).put m r v) ((cells empty).put m' r' v) := by
  cases r <;> cases r' <;> simp only [RefM] at hr
  · rename_i id d
    simp only [slots, cells]
    cases d with
    | own d =>
      have hid : id < L.length := by
        by_contra hc
        simp only [Placed] at hr
        rw [List.getElem?_eq_none (by omega)] at hr
        cases hr
      have hf := h.fits
      refine ⟨h.globals, by simp [h.len], h.nodup, h.fits, ?_, ?_, ?_, ?_⟩
      · intro i d' hi
        rw [List.getElem?_set]
        by_cases hii : id = i
        · subst hii
          simp only [Placed] at hr
          rw [hr] at hi
          injection hi with hi
          subst hi
          rw [if_pos rfl, if_pos (by rw [h.len]; omega)]
          simp only [if_true]
        · rw [if_neg hii, h.own i d' hi]
          simp only
          rw [if_neg]
          intro hdd
          injection hdd with hdd
          subst hdd
          exact hii ((List.getElem?_inj hid h.nodup).mp (hr.trans hi.symm))
      · intro i h1 h2
        rw [List.getElem?_set_ne (by omega)]
        exact h.free i h1 h2
      · intro k hk
        rw [List.getElem?_set_ne (by omega), h.outer k hk]
        simp only [reduceCtorEq, if_false]
      · intro d' hd'
        simp only
        rw [if_neg, h.rest d' hd']
        intro hdd
        injection hdd with hdd
        subst hdd
        exact hd' (List.mem_of_getElem? hr)
    | outer k =>
      obtain ⟨rfl, hk⟩ := hr
      have hf := h.fits
      refine ⟨h.globals, by simp [h.len], h.nodup, h.fits, ?_, ?_, ?_, ?_⟩
      · intro i d' hi
        have : i < L.length := by
          by_contra hc
          rw [List.getElem?_eq_none (by omega)] at hi
          cases hi
        rw [List.getElem?_set_ne (by omega), h.own i d' hi]
        simp only [reduceCtorEq, if_false]
      · intro i h1 h2
        rw [List.getElem?_set_ne (by omega)]
        exact h.free i h1 h2
      · intro k' hk'
        rw [List.getElem?_set]
        by_cases hkk : k = k'
        · subst hkk
          rw [if_pos rfl, if_pos (by rw [h.len]; omega)]
          simp only [if_true]
        · rw [if_neg (by omega), h.outer k' hk']
          simp only
          rw [if_neg]
          intro e
          injection e with e
          exact hkk e.symm
      · intro d' hd'
        simp only
        rw [if_neg (by simp), h.rest d' hd']
  · subst hr
    simp only [slots, cells]
    exact ⟨by simp only [h.globals], h.len, h.nodup, h.fits, h.own, h.free, h.outer, h.rest⟩
  · exact h

theorem fill_get {empty : V} {idx num : Nat} {l : List V} (h : idx + num ≤ l.length) (i : Nat) :
    (fill empty idx num l)[i]? = if idx ≤ i ∧ i < idx + num then some empty else l[i]? := by
  unfold fill
  rw [if_pos h]
  by_cases h1 : i < idx
  · rw [if_neg (by omega), List.append_assoc, List.getElem?_append_left (by simp; omega), List.getElem?_take, if_pos h1]
  · by_cases h2 : i < idx + num
    · rw [if_pos (by omega), List.append_assoc, List.getElem?_append_right (by simp; omega),
        List.getElem?_append_left (by simp; omega), List.getElem?_replicate, if_pos (by simp; omega)]
    · rw [if_neg (by omega), List.getElem?_append_right (by simp; omega), List.getElem?_drop]
      congr 1
      simp only [List.length_append, List.length_take, List.length_replicate]
      omega

/-- The end of a block. -/
theorem same_drop {empty : V} {nv nl L A m m'} (h : Same empty nv nl (L ++ A) m m') {k ks} (hk : Ends L A k ks) :
    Same empty nv nl L ((slots empty).drop m k) ((cells empty).drop m' ks) := by
  obtain ⟨rfl, hks⟩ := hk
  have hf := h.fits
  have hl := h.len
  simp only [List.length_append] at hf
  have hdrop : ((slots empty).drop m (if A = [] then none else some ⟨L.length, A.length⟩)).globals = m.globals
      ∧ ((slots empty).drop m (if A = [] then none else some ⟨L.length, A.length⟩)).locals.length = m.locals.length
      ∧ ∀ i, ((slots empty).drop m (if A = [] then none else some ⟨L.length, A.length⟩)).locals[i]?
        = if L.length ≤ i ∧ i < L.length + A.length then some empty else m.locals[i]? := by
    by_cases hA : A = []
    · subst hA
      simp only [if_true, slots, List.length_nil, Nat.add_zero]
      refine ⟨trivial, trivial, ?_⟩
      intro i
      rw [if_neg (by omega)]
    · rw [if_neg hA]
      refine ⟨rfl, ?_, ?_⟩
      · simp only [slots, fill]
        split
        · simp only [List.length_append, List.length_take, List.length_replicate, List.length_drop]
          omega
        · rfl
      · intro i
        exact fill_get (idx := L.length) (num := A.length) (by omega) i
  obtain ⟨g1, g2, g3⟩ := hdrop
  refine ⟨?_, by rw [g2, hl], (List.nodup_append.mp h.nodup).1, by omega, ?_, ?_, ?_, ?_⟩
  · rw [g1, h.globals]; rfl
  · intro i d hi
    have hlt : i < L.length := by
      by_contra hc
      rw [List.getElem?_eq_none (by omega)] at hi
      cases hi
    rw [g3, if_neg (by omega), h.own i d (by rw [List.getElem?_append_left hlt]; exact hi)]
    simp only [cells]
    rw [if_neg]
    intro hc
    obtain ⟨n, hn, e⟩ := (hks _).mp hc
    injection e with e
    subst e
    exact (List.nodup_append.mp h.nodup).2.2 _ (List.mem_of_getElem? hi) _ hn rfl
  · intro i h1 h2
    rw [g3]
    split
    · rfl
    · exact h.free i (by simp; omega) h2
  · intro k hk
    rw [g3, if_neg (by omega), h.outer k hk]
    simp only [cells]
    rw [if_neg]
    intro hc
    obtain ⟨n, _, e⟩ := (hks _).mp hc
    cases e
  · intro d hd
    simp only [cells]
    split
    · rfl
    · rename_i hc
      apply h.rest
      intro hm
      rcases List.mem_append.mp hm with hm | hm
      · exact hd hm
      · exact hc ((hks _).mpr ⟨d, hm, rfl⟩)

/-- Every block that is left early has no variables of its own. -/
def tidy {R : Type} : Code W V R (List Id) → Bool
  | .seq a b => tidy a && tidy b
  | .ite _ _ a ka b kb => tidy a && tidy b && (!exits a || ka.isEmpty) && (!exits b || kb.isEmpty)
  | .loop _ _ a ka => tidy a && (!exits a || ka.isEmpty)
  | _ => true

/-- Two executions agree. -/
def Agree (empty : V) (nv nl : Nat) (L L' : List Nat) (x : Bool) :
    Option (W × Slots V × Exit) → Option (W × Cells V × Exit) → Prop
  | none, none => True
  | some (w, m, e), some (w', m', e') => w = w' ∧ e = e' ∧ (e = .normal → Same empty nv nl L' m m')
      ∧ (e ≠ .normal → x = true ∧ ∃ L1, L <+: L1 ∧ L1 <+: L' ∧ Same empty nv nl L1 m m')
  | _, _ => False

theorem agree_leave {empty : V} {nv nl L A x r r' k ks} (h : Agree (W := W) empty nv nl L (L ++ A) x r r')
    (hk : Ends L A k ks) (hx : x = true → ks = []) :
    Agree empty nv nl L L x (run.leave (slots empty) false k r) (run.leave (cells empty) true ks r') := by
  cases r with
  | none => cases r' <;> exact h
  | some r =>
    cases r' with
    | none => exact h
    | some r' =>
      obtain ⟨w, m, e⟩ := r
      obtain ⟨w', m', e'⟩ := r'
      obtain ⟨rfl, rfl, h1, h2⟩ := h
      simp only [run.leave, Agree, or_true, if_true, true_and, Bool.false_eq_true, or_false]
      constructor
      · intro he
        rw [if_pos he]
        exact same_drop (h1 he) hk
      · intro he
        obtain ⟨hxt, L1, p1, p2, hs⟩ := h2 he
        have hks := hx hxt
        refine ⟨hxt, L, List.prefix_rfl, List.prefix_rfl, ?_⟩
        have hA : A = [] := by
          cases A with
          | nil => rfl
          | cons a A =>
            have := (hk.2 (.own a)).mpr ⟨a, by simp, rfl⟩
            rw [hks] at this
            simp at this
        subst hA
        rw [List.append_nil] at p2
        have := p1.eq_of_length_le p2.length_le
        subst this
        rw [if_neg he, hks]
        exact ⟨hs.globals, hs.len, hs.nodup, hs.fits, hs.own, hs.free, hs.outer, hs.rest⟩

/-- **The slots behave like the cells.** -/
theorem simulate {empty : V} {nv nl : Nat} : ∀ (fuel : Nat) {L L' : List Nat} {c c'}, Matches (W := W) (Placed nv nl) nv L c c' L' →
    tidy c' = true → ∀ (w : W) (m : Slots V) (m' : Cells V), Same empty nv nl L m m' →
    Agree empty nv nl L L' (exits c') (run (slots empty) false fuel c w m) (run (cells empty) true fuel c' w m') := by
  intro fuel
  induction fuel with
  | zero => intro L L' c c' _ _ w m m' _; exact trivial
  | succ n ih =>
    intro L L' c c' hM ht w m m' hs
    cases hM with
    | skip => exact ⟨rfl, rfl, fun _ => hs, fun h => absurd rfl h⟩
    | exit =>
      rename_i e
      refine ⟨rfl, rfl, ?_, fun _ => ⟨rfl, L, List.prefix_rfl, List.prefix_rfl, hs⟩⟩
      cases e <;> simp
    | @seq _ L1 _ a b a' b' ha hb =>
      simp only [tidy, Bool.and_eq_true] at ht
      have h1 := ih ha ht.1 w m m' hs
      simp only [run]
      cases hr : run (slots empty) false n a w m with
      | none =>
        rw [hr] at h1
        cases hr' : run (cells empty) true n a' w m' with
        | none => exact trivial
        | some r' => rw [hr'] at h1; exact h1.elim
      | some r =>
        rw [hr] at h1
        cases hr' : run (cells empty) true n a' w m' with
        | none => rw [hr'] at h1; exact h1.elim
        | some r' =>
          rw [hr'] at h1
          obtain ⟨w1, m1, e⟩ := r
          obtain ⟨w1', m1', e'⟩ := r'
          obtain ⟨rfl, rfl, h2, h3⟩ := h1
          have early : e ≠ .normal → Agree empty nv nl L L' (exits a' || exits b') (some (w1, m1, e)) (some (w1, m1', e)) := by
            intro he
            obtain ⟨hx, L2, p1, p2, hs2⟩ := h3 he
            exact ⟨rfl, rfl, fun h => absurd h he, fun _ => ⟨by rw [hx]; rfl, L2, p1, p2.trans (matches_prefix hb), hs2⟩⟩
          cases e with
          | normal =>
            have h4 := ih hb ht.2 w1 m1 m1' (h2 rfl)
            simp only
            cases hq : run (slots empty) false n b w1 m1 with
            | none =>
              rw [hq] at h4
              cases hq' : run (cells empty) true n b' w1 m1' with
              | none => exact trivial
              | some r' => rw [hq'] at h4; exact h4.elim
            | some q =>
              rw [hq] at h4
              cases hq' : run (cells empty) true n b' w1 m1' with
              | none => rw [hq'] at h4; exact h4.elim
              | some q' =>
                rw [hq'] at h4
                obtain ⟨w2, m2, e2⟩ := q
                obtain ⟨w2', m2', e2'⟩ := q'
                obtain ⟨rfl, rfl, h5, h6⟩ := h4
                refine ⟨rfl, rfl, h5, ?_⟩
                intro he
                obtain ⟨hx, L2, p1, p2, hs2⟩ := h6 he
                exact ⟨by simp only [exits, hx, Bool.or_true], L2, (matches_prefix ha).trans p1, p2, hs2⟩
          | brk => exact early (by simp)
          | cont => exact early (by simp)
    | set hL hn hx hu =>
      have hs' := same_grow hs hL hn
      simp only [run]
      rw [same_gets hs' hu]
      exact ⟨rfl, rfl, fun _ => same_put hs' hx _, fun h => absurd rfl h⟩
    | act hu =>
      simp only [run]
      rw [same_gets hs hu]
      exact ⟨rfl, rfl, fun _ => hs, fun h => absurd rfl h⟩
    | @ite _ A B us us' g a a' b b' ka ka' kb kb' hu ha hka hb hkb =>
      simp only [tidy, Bool.and_eq_true, Bool.or_eq_true, Bool.not_eq_true', List.isEmpty_iff] at ht
      obtain ⟨⟨⟨ta, tb⟩, xa⟩, xb⟩ := ht
      have imp : ∀ {x : Bool} {l : List Id}, (x = false ∨ l = []) → x = true → l = [] := by
        intro x l h hx
        rcases h with h | h
        · rw [h] at hx; cases hx
        · exact h
      have weaken : ∀ {x y : Bool} {r r'}, (x = true → y = true) → Agree (W := W) empty nv nl L L x r r' → Agree empty nv nl L L y r r' := by
        intro x y r r' hxy h
        cases r <;> cases r' <;> try exact h
        exact ⟨h.1, h.2.1, h.2.2.1, fun he => ⟨hxy (h.2.2.2 he).1, (h.2.2.2 he).2⟩⟩
      simp only [run]
      rw [same_gets hs hu]
      generalize g w (us'.map fun u => (cells empty).get m' u.ref) = t
      by_cases htt : t.2 = true
      · rw [if_pos htt, if_pos htt]
        exact weaken (by intro h; simp only [exits, h, Bool.true_or]) (agree_leave (ih ha ta t.1 m m' hs) hka (imp xa))
      · rw [if_neg htt, if_neg htt]
        exact weaken (by intro h; simp only [exits, h, Bool.or_true]) (agree_leave (ih hb tb t.1 m m' hs) hkb (imp xb))
    | @loop _ A us us' g a a' ka ka' hu ha hka =>
      have ht0 := ht
      simp only [tidy, Bool.and_eq_true, Bool.or_eq_true, Bool.not_eq_true', List.isEmpty_iff] at ht
      obtain ⟨ta, xa⟩ := ht
      simp only [run]
      rw [same_gets hs hu]
      generalize g w (us'.map fun u => (cells empty).get m' u.ref) = t
      by_cases htt : t.2 = true
      · rw [if_pos htt, if_pos htt]
        have h1 := agree_leave (ih ha ta t.1 m m' hs) hka (by
          intro hx
          rcases xa with h | h
          · rw [h] at hx; cases hx
          · exact h)
        generalize run.leave (slots empty) false ka (run (slots empty) false n a t.1 m) = r at h1
        generalize run.leave (cells empty) true ka' (run (cells empty) true n a' t.1 m') = r' at h1
        cases r with
        | none =>
          cases r' with
          | none => exact trivial
          | some r' => exact h1.elim
        | some r =>
          cases r' with
          | none => exact h1.elim
          | some r' =>
            obtain ⟨w1, m1, e⟩ := r
            obtain ⟨w1', m1', e'⟩ := r'
            obtain ⟨rfl, rfl, h2, h3⟩ := h1
            have hs1 : Same empty nv nl L m1 m1' := by
              by_cases he : e = .normal
              · exact h2 he
              · obtain ⟨_, L1, p1, p2, h⟩ := h3 he
                have := p1.eq_of_length_le p2.length_le
                subst this
                exact h
            have again := ih (.loop (g := g) hu ha hka) ht0 w1 m1 m1' hs1
            cases e with
            | brk => exact ⟨rfl, rfl, fun _ => hs1, fun h => absurd rfl h⟩
            | normal => exact again
            | cont => exact again
      · rw [if_neg htt, if_neg htt]
        exact ⟨rfl, rfl, fun _ => hs, fun h => absurd rfl h⟩

end Match

end Sieve.Scope
