import Verif.ScopeLemmas

/-!
# C22: the compiler's slots match the variables of the script
-/

namespace Sieve.Scope

variable {W V : Type}

theorem asciiChar_idem (c : Char) : asciiChar (asciiChar c) = asciiChar c := by
  unfold asciiChar
  by_cases h : 'A' ≤ c ∧ c ≤ 'Z'
  · rw [if_pos h]
    rw [if_neg]
    have h1 : 65 ≤ c.toNat := h.1
    have h2 : c.toNat ≤ 90 := h.2
    have hv : (c.toNat + 32).isValidChar := Or.inl (by omega)
    intro h3
    have h4 : (Char.ofNat (c.toNat + 32)).toNat ≤ 90 := h3.2
    have h5 : (Char.ofNat (c.toNat + 32)).toNat = c.toNat + 32 := by
      rw [Char.ofNat, dif_pos hv]
      rfl
    omega
  · rw [if_neg h, if_neg h]

theorem ascii_idem (n : Name) : ascii (ascii n) = ascii n := by
  unfold ascii
  rw [List.map_map]
  exact List.map_congr_left fun c _ => asciiChar_idem c

/-- A block of the script, with the variables of it and of the enclosing blocks, and how it looks on both sides. -/
structure Level where
  live : List Nat
  b : List (Name × Nat)
  b' : List (Name × Id)

def Entry (nl : Nat) (L : List Nat) (e : Name × Nat) (e' : Name × Id) : Prop := e.1 = e'.1 ∧ Loc nl L e.2 e'.2

/-- The two states correspond. -/
structure Al (lv : List Level) (L : List Nat) (st : St) (sp : Sp) : Prop where
  left : st.block :: st.stack = lv.map Level.b
  right : sp.scopes = lv.map Level.b'
  entries : ∀ l ∈ lv, List.Forall₂ (Entry st.loc l.live) l.b l.b'
  chain : lv.Pairwise fun a b => b.live <+: a.live
  head : (lv.head?.map Level.live) = some L
  num : st.num = L.length
  loc : st.loc = sp.outer
  globals : st.globals = sp.globals
  fresh : ∀ d ∈ L, d < sp.own

theorem loc_mono {nl nl' : Nat} {L L' : List Nat} {id d} (hn : nl ≤ nl') (hL : L <+: L') (h : Loc nl L id d) : Loc nl' L' id d := by
  cases d with
  | own d =>
    simp only [Loc] at h ⊢
    obtain ⟨t, rfl⟩ := hL
    have hlt : id < L.length := by
      by_contra hc
      rw [List.getElem?_eq_none (by omega)] at h
      cases h
    rw [List.getElem?_append_left hlt, h]
  | outer k => exact ⟨h.1, by have := h.2; omega⟩

theorem entries_mono {nl nl' : Nat} {L L' : List Nat} {b b'} (hn : nl ≤ nl') (hL : L <+: L')
    (h : List.Forall₂ (Entry nl L) b b') : List.Forall₂ (Entry nl' L') b b' := by
  induction h with
  | nil => exact .nil
  | cons h _ ih => exact .cons ⟨h.1, loc_mono hn hL h.2⟩ ih

/-- Corresponding results of a search. -/
def OptM (nl : Nat) (L : List Nat) : Option Nat → Option Id → Prop
  | none, none => True
  | some id, some d => Loc nl L id d
  | _, _ => False

theorem find_match {nl L b b'} (h : List.Forall₂ (Entry nl L) b b') (n : Name) :
    OptM nl L ((b.find? fun e => e.1 = n).map Prod.snd) ((b'.find? fun e => e.1 = n).map Prod.snd) := by
  induction h with
  | nil => exact trivial
  | @cons e e' l l' he _ ih =>
    rw [List.find?_cons, List.find?_cons, he.1]
    by_cases hn : e'.1 = n
    · simp only [hn, decide_true]
      exact he.2
    · simp only [hn, decide_false]
      exact ih

theorem getLocal_match {lv L st sp} (h : Al lv L st sp) (n : Name) : OptM st.loc L (getLocal st n) (lookup sp n) := by
  unfold getLocal lookup
  rw [h.left, h.right]
  have hpre : ∀ l ∈ lv, l.live <+: L := by
    intro l hl
    have hh := h.head
    have hc := h.chain
    cases lv with
    | nil => simp at hl
    | cons l0 lv =>
      simp only [List.head?_cons, Option.map_some, Option.some.injEq] at hh
      subst hh
      rcases List.mem_cons.mp hl with rfl | hl
      · exact List.prefix_rfl
      · exact (List.pairwise_cons.mp hc).1 l hl
  have he := h.entries
  clear h
  induction lv with
  | nil => exact trivial
  | cons l lv ih =>
    have := find_match (he l (by simp)) (ascii n)
    simp only [List.map_cons, List.findSome?_cons, find]
    generalize (l.b.find? fun e => e.1 = ascii n).map Prod.snd = r at this ⊢
    generalize (l.b'.find? fun e => e.1 = ascii n).map Prod.snd = r' at this ⊢
    cases r with
    | none =>
      cases r' with
      | none => exact ih (fun l h => hpre l (by simp [h])) (fun l h => he l (by simp [h]))
      | some d => exact this.elim
    | some id =>
      cases r' with
      | none => exact this.elim
      | some d => exact loc_mono (Nat.le_refl _) (hpre l (by simp)) this

theorem use_match {lv L st sp} (h : Al lv L st sp) {x : Var}
    (hx : ∀ n, x = .plain n → ascii n ∈ st.globals → ascii n = n) : RefM (Loc st.loc) L (use st x) (sp.use x) := by
  cases x with
  | global n => rfl
  | plain n =>
    simp only [use, Sp.use, isGlobal, ← h.globals]
    by_cases hg : ascii n ∈ st.globals
    · simp only [hg, decide_true, if_true]
      exact (hx n rfl hg).symm
    · simp only [hg, decide_false, Bool.false_eq_true, if_false]
      have := getLocal_match h n
      generalize getLocal st n = r at this ⊢
      generalize lookup sp n = r' at this ⊢
      cases r <;> cases r' <;> simp only [OptM] at this <;> first | trivial | exact this

theorem uses_match {lv L st sp} (h : Al lv L st sp) {us : List (Use Var)}
    (hx : ∀ u ∈ us, ∀ n, u.ref = .plain n → ascii n ∈ st.globals → ascii n = n) :
    List.Forall₂ (UseM (Loc st.loc) L) (uses st us) (sp.uses us) := by
  induction us with
  | nil => exact .nil
  | cons u us ih =>
    exact .cons ⟨use_match h (hx u (by simp)), rfl⟩ (ih fun u h => hx u (by simp [h]))

/-- `:local` inside a block adds to the outermost one. -/
def addLevel (e : Name × Nat) (e' : Name × Id) : List Level → List Level
  | [] => []
  | [l] => [⟨l.live, e :: l.b, e' :: l.b'⟩]
  | l :: ls => l :: addLevel e e' ls

theorem addLevel_b (e : Name × Nat) (e' : Name × Id) : ∀ lv, (addLevel e e' lv).map Level.b = addOuter e (lv.map Level.b)
  | [] => rfl
  | [_] => rfl
  | l :: l2 :: ls => by
    have := addLevel_b e e' (l2 :: ls)
    simp only [addLevel, List.map_cons, addOuter] at this ⊢
    rw [this]

theorem addLevel_b' (e : Name × Nat) (e' : Name × Id) : ∀ lv, (addLevel e e' lv).map Level.b' = addOuter e' (lv.map Level.b')
  | [] => rfl
  | [_] => rfl
  | l :: l2 :: ls => by
    have := addLevel_b' e e' (l2 :: ls)
    simp only [addLevel, List.map_cons, addOuter] at this ⊢
    rw [this]

theorem addLevel_live (e : Name × Nat) (e' : Name × Id) : ∀ lv, (addLevel e e' lv).map Level.live = lv.map Level.live
  | [] => rfl
  | [_] => rfl
  | l :: l2 :: ls => by
    have := addLevel_live e e' (l2 :: ls)
    simp only [addLevel, List.map_cons] at this ⊢
    rw [this]

theorem addLevel_entries {nl nl' : Nat} {e e'} (hn : nl ≤ nl') (he : ∀ L, Entry nl' L e e') : ∀ {lv : List Level},
    (∀ l ∈ lv, List.Forall₂ (Entry nl l.live) l.b l.b') → ∀ l ∈ addLevel e e' lv, List.Forall₂ (Entry nl' l.live) l.b l.b'
  | [], _, l, hl => by simp [addLevel] at hl
  | [l0], h, l, hl => by
    simp only [addLevel, List.mem_singleton] at hl
    subst hl
    exact .cons (he _) (entries_mono hn List.prefix_rfl (h l0 (by simp)))
  | l0 :: l1 :: ls, h, l, hl => by
    rw [addLevel] at hl
    · rcases List.mem_cons.mp hl with rfl | hl
      · exact entries_mono hn List.prefix_rfl (h l (by simp))
      · exact addLevel_entries hn he (lv := l1 :: ls) (fun l h' => h l (by simp only [List.mem_cons] at h' ⊢; tauto)) l hl
    · simp

theorem addLevel_keep (e : Name × Nat) (e' : Name × Id) : ∀ lv, (addLevel e e' lv).dropLast = lv.dropLast
  | [] => rfl
  | [_] => rfl
  | l :: l2 :: ls => by
    have h := addLevel_keep e e' (l2 :: ls)
    have h2 : addLevel e e' (l2 :: ls) ≠ [] := by
      intro h0
      have := addLevel_live e e' (l2 :: ls)
      rw [h0] at this
      simp at this
    rw [addLevel]
    · rw [List.dropLast_cons_of_ne_nil h2, h]
      rfl
    · simp

theorem forall₂_imp {α β : Type} {R S : α → β → Prop} (h : ∀ a b, R a b → S a b) {l l'} (hl : List.Forall₂ R l l') :
    List.Forall₂ S l l' := by
  induction hl with
  | nil => exact .nil
  | cons h1 _ ih => exact .cons (h _ _ h1) ih

theorem pairwise_live {lv lv' : List Level} (h : lv.map Level.live = lv'.map Level.live)
    (hp : lv.Pairwise fun a b => b.live <+: a.live) : lv'.Pairwise fun a b => b.live <+: a.live := by
  have : (lv.map Level.live).Pairwise fun a b => b <+: a := List.pairwise_map.mpr hp
  rw [h] at this
  exact List.pairwise_map.mp this

/-- The most slots ever used at once. -/
def mark (st : St) : Nat := max st.max st.num

/-- What a statement does to the state: variables `A` are added to the current block. -/
structure Grows (l : Level) (lv : List Level) (st : St) (A : List Nat) (l' : Level) (lv' : List Level) (st' : St) (sp' : Sp) : Prop where
  al : Al (l' :: lv') (l.live ++ A) st' sp'
  live : l'.live = l.live ++ A
  rest : lv'.map Level.live = lv.map Level.live
  keep : lv'.dropLast = lv.dropLast
  count : lv ≠ [] → l'.b.length = A.length + l.b.length
  ids : lv ≠ [] → l'.b'.map Prod.snd = (A.map Id.own).reverse ++ l.b'.map Prod.snd
  mark : mark st ≤ mark st'
  loc : st.loc ≤ st'.loc

theorem declare_match {l lv st sp} (h : Al (l :: lv) l.live st sp) (x : Var) (asLocal : Bool) :
    ∃ A l' lv', Grows l lv st A l' lv' (declare st x asLocal).2 (sp.declare x asLocal).2
      ∧ (A = [] ∨ ∃ d, d ∉ l.live ∧ A = [d])
      ∧ RefM (Loc (declare st x asLocal).2.loc) (l.live ++ A) (declare st x asLocal).1 (sp.declare x asLocal).1
      ∧ (declare st x asLocal).2.globals = st.globals := by
  have same : ∀ r r', RefM (Loc st.loc) l.live r r' → ∃ A l' lv', Grows l lv st A l' lv' st sp
      ∧ (A = [] ∨ ∃ d, d ∉ l.live ∧ A = [d]) ∧ RefM (Loc st.loc) (l.live ++ A) r r' ∧ st.globals = st.globals := by
    intro r r' hr
    refine ⟨[], l, lv, ⟨by rw [List.append_nil]; exact h, by simp, rfl, rfl, by simp, by simp, Nat.le_refl _, Nat.le_refl _⟩,
      Or.inl rfl, by rw [List.append_nil]; exact hr, rfl⟩
  cases x with
  | global n => exact same (.glob (ascii n)) (.glob (ascii n)) rfl
  | plain n =>
    simp only [declare, Sp.declare, isGlobal, ascii_idem, ← h.globals]
    by_cases hg : ascii n ∈ st.globals
    · rw [if_pos (by simpa using hg), if_pos hg]
      exact same (.glob (ascii n)) (.glob (ascii n)) rfl
    · simp only [hg, decide_false, Bool.false_eq_true, if_false]
      have hm := getLocal_match h n
      have hget : getLocal st (ascii n) = getLocal st n := by simp only [getLocal, ascii_idem]
      simp only [register, hget]
      generalize getLocal st n = r at hm ⊢
      generalize lookup sp n = r' at hm ⊢
      cases r with
      | some id =>
        cases r' with
        | none => exact hm.elim
        | some d => exact same _ _ hm
      | none =>
        cases r' with
        | some d => exact hm.elim
        | none =>
          simp only
          have hr := h.right
          have hl := h.left
          simp only [List.map_cons, List.cons.injEq] at hl
          rw [List.map_cons] at hr
          simp only [hr]
          have hcond : (!asLocal || st.stack.isEmpty) = true ↔ ¬ (asLocal = true ∧ lv.map Level.b' ≠ []) := by
            rw [hl.2]
            cases asLocal <;> cases lv <;> simp
          by_cases hc : asLocal = true ∧ lv.map Level.b' ≠ []
          · rw [if_pos hc, if_neg (by rw [hcond]; simpa using hc)]
            have hlive := addLevel_live (ascii n, top - st.loc) (ascii n, .outer sp.outer) lv
            refine ⟨[], l, addLevel (ascii n, top - st.loc) (ascii n, .outer sp.outer) lv, ?_, Or.inl rfl, ?_, rfl⟩
            · refine ⟨?_, by simp, hlive, addLevel_keep _ _ _, by simp, by simp, Nat.le_refl _, by simp⟩
              rw [List.append_nil]
              refine ⟨?_, ?_, ?_, ?_, rfl, h.num, by simp only [h.loc], rfl, h.fresh⟩
              · simp only [List.map_cons, addLevel_b]
                rw [hl.1, hl.2]
              · simp only [List.map_cons, addLevel_b']
              · intro l1 hl1
                rcases List.mem_cons.mp hl1 with rfl | hl1
                · exact entries_mono (Nat.le_succ _) List.prefix_rfl (h.entries l1 (by simp))
                · refine addLevel_entries (nl := st.loc) (Nat.le_succ _) ?_ (fun l h' => h.entries l (by simp [h'])) l1 hl1
                  intro L
                  refine ⟨rfl, ?_, ?_⟩
                  · simp only [h.loc]
                  · simp only [h.loc]; omega
              · refine pairwise_live (lv := l :: lv) ?_ h.chain
                simp only [List.map_cons, hlive]
            · simp only [RefM, Loc, List.append_nil, h.loc, true_and]
              omega
          · rw [if_neg hc, if_pos (hcond.mpr hc)]
            have hd : sp.own ∉ l.live := fun hm => Nat.lt_irrefl _ (h.fresh _ hm)
            have hnew : (l.live ++ [sp.own])[st.num]? = some sp.own := by
              rw [h.num, List.getElem?_append_right (Nat.le_refl _)]
              simp
            refine ⟨[sp.own], ⟨l.live ++ [sp.own], (ascii n, st.num) :: l.b, (ascii n, .own sp.own) :: l.b'⟩, lv, ?_,
              Or.inr ⟨_, hd, rfl⟩, hnew, rfl⟩
            refine ⟨?_, rfl, rfl, rfl, by simp [Nat.add_comm], by simp, ?_, Nat.le_refl _⟩
            · refine ⟨?_, ?_, ?_, ?_, rfl, ?_, h.loc, rfl, ?_⟩
              · simp only [List.map_cons, hl.1, hl.2]
              · simp only [List.map_cons]
              · intro l1 hl1
                rcases List.mem_cons.mp hl1 with rfl | hl1
                · exact .cons ⟨rfl, hnew⟩ (entries_mono (Nat.le_refl _) (List.prefix_append _ _) (h.entries l (by simp)))
                · exact h.entries l1 (by simp [hl1])
              · refine List.pairwise_cons.mpr ⟨?_, (List.pairwise_cons.mp h.chain).2⟩
                intro l1 hl1
                exact ((List.pairwise_cons.mp h.chain).1 l1 hl1).trans (List.prefix_append _ _)
              · simp only [List.length_append, List.length_singleton, h.num]
              · intro d hd'
                rcases List.mem_append.mp hd' with hd' | hd'
                · have := h.fresh d hd'
                  show d < sp.own + 1
                  omega
                · simp only [List.mem_singleton] at hd'
                  subst hd'
                  show sp.own < sp.own + 1
                  omega
            · simp only [mark]
              omega

theorem open_match {l lv st sp} (h : Al (l :: lv) l.live st sp) :
    Al (⟨l.live, [], []⟩ :: l :: lv) l.live («open» st) sp.open := by
  have hl := h.left
  have hr := h.right
  refine ⟨?_, ?_, ?_, ?_, rfl, h.num, h.loc, h.globals, h.fresh⟩
  · simp only [«open», List.map_cons] at hl ⊢
    rw [hl]
  · simp only [Sp.open, List.map_cons] at hr ⊢
    rw [hr]
  · intro l1 hl1
    rcases List.mem_cons.mp hl1 with rfl | hl1
    · exact .nil
    · exact h.entries l1 hl1
  · refine List.pairwise_cons.mpr ⟨?_, h.chain⟩
    intro l1 hl1
    rcases List.mem_cons.mp hl1 with rfl | hl1
    · exact List.prefix_rfl
    · exact (List.pairwise_cons.mp h.chain).1 l1 hl1

/-- A block: its variables are gone at its end, and cleared. -/
theorem close_match {l lv st A l1 lv1 st1 sp1} (hst : (l :: lv).map Level.b = st.block :: st.stack) (hnum : st.num = l.live.length)
    (h : Grows ⟨l.live, [], []⟩ (l :: lv) («open» st) A l1 lv1 st1 sp1) :
    ∃ l2 lv2, lv1 = l2 :: lv2 ∧ Ends l.live A (close st1).1 sp1.close.1 ∧ l2.live = l.live
      ∧ lv2.map Level.live = lv.map Level.live ∧ lv2.dropLast = lv.dropLast ∧ (lv ≠ [] → l2 = l) ∧ Al (l2 :: lv2) l.live (close st1).2 sp1.close.2
      ∧ mark st1 ≤ mark (close st1).2 ∧ mark st ≤ mark (close st1).2 ∧ (close st1).2.loc = st1.loc
      ∧ (close st1).2.globals = st1.globals := by
  obtain ⟨l2, lv2, rfl⟩ : ∃ l2 lv2, lv1 = l2 :: lv2 := by
    have := h.rest
    cases lv1 with
    | nil => simp at this
    | cons a b => exact ⟨a, b, rfl⟩
  have hrest := h.rest
  simp only [List.map_cons, List.cons.injEq] at hrest
  have hkeep : lv2.dropLast = lv.dropLast ∧ (lv ≠ [] → l2 = l) := by
    have h1 := h.keep
    have h2 := congrArg List.length hrest.2
    simp only [List.length_map] at h2
    cases lv with
    | nil =>
      have : lv2 = [] := List.eq_nil_of_length_eq_zero (by simpa using h2)
      rw [this]
      simp
    | cons l0 lv =>
      cases lv2 with
      | nil => simp at h2
      | cons l3 lv3 =>
        simp only [List.dropLast_cons_of_ne_nil, ne_eq, reduceCtorEq, not_false_eq_true, List.cons.injEq] at h1
        exact ⟨h1.2, fun _ => h1.1⟩
  have hlen : st1.block.length = A.length := by
    have h1 := h.al.left
    simp only [List.map_cons, List.cons.injEq] at h1
    rw [h1.1, h.count (by simp)]
    simp
  have hnum1 : st1.num = l.live.length + A.length := by
    have := h.al.num
    simp only [List.length_append] at this
    exact this
  have hleft := h.al.left
  have hright := h.al.right
  simp only [List.map_cons, List.cons.injEq] at hleft hright
  have hmark := h.mark
  have halG : ∀ st2 : St, st2.block = l2.b → st2.stack = lv2.map Level.b → st2.num = l.live.length → st2.loc = st1.loc →
      st2.globals = st1.globals → Al (l2 :: lv2) l.live st2 sp1.close.2 := by
    intro st2 e1 e2 e3 e4 e5
    refine ⟨by simp only [List.map_cons, e1, e2], ?_, ?_, (List.pairwise_cons.mp h.al.chain).2, ?_, e3, ?_, ?_, ?_⟩
    · simp only [Sp.close, hright, List.tail_cons, List.map_cons]
    · intro l3 hl3
      rw [e4]
      exact h.al.entries l3 (by simp only [List.mem_cons] at hl3 ⊢; tauto)
    · simp only [List.head?_cons, Option.map_some, hrest.1]
    · rw [e4]; exact h.al.loc
    · rw [e5]; exact h.al.globals
    · intro d hd
      exact h.al.fresh d (by simp [hd])
  refine ⟨l2, lv2, rfl, ⟨?_, ?_⟩, hrest.1, hrest.2, hkeep.1, hkeep.2, ?_, ?_, ?_, ?_, ?_⟩
  · unfold close
    simp only [hlen, hnum1]
    by_cases hA : A = []
    · subst hA; simp
    · have : 0 < A.length := List.length_pos_iff.mpr hA
      rw [if_pos this, if_neg hA]
      simp
  · intro d
    simp only [Sp.close, hright, List.headD_cons, h.ids (by simp), List.map_nil, List.append_nil, List.mem_reverse, List.mem_map]
    constructor
    · rintro ⟨n, hn, rfl⟩; exact ⟨n, hn, rfl⟩
    · rintro ⟨n, hn, rfl⟩; exact ⟨n, hn, rfl⟩
  · unfold close
    simp only [hlen, hnum1]
    split
    · exact halG _ (by simp [hleft.2]) (by simp [hleft.2]) (by simp) rfl rfl
    · refine halG _ (by simp [hleft.2]) (by simp [hleft.2]) (by show l.live.length + A.length = _; omega) rfl rfl
  all_goals
    unfold close
    simp only [hlen, hnum1]
    simp only [mark, «open»] at hmark
    split
  · simp only [mark]; omega
  · simp only [mark]; omega
  · simp only [mark]; omega
  · simp only [mark]; omega
  · rfl
  · rfl
  · rfl
  · rfl

/-- The names declared by `global`. -/
def declared {R K : Type} : Code W V R K → List Name
  | .seq a b => declared a ++ declared b
  | .global n => [ascii n]
  | .ite _ _ a _ b _ => declared a ++ declared b
  | .loop _ _ a _ => declared a
  | _ => []

/-- The variables read. -/
def reads {R K : Type} : Code W V R K → List (Use R)
  | .seq a b => reads a ++ reads b
  | .set _ _ us _ => us
  | .act us _ => us
  | .ite us _ a _ b _ => us ++ reads a ++ reads b
  | .loop us _ a _ => us ++ reads a
  | _ => []

theorem useM_mono {nl nl' : Nat} (hl : nl ≤ nl') {L us us'} (h : List.Forall₂ (UseM (Loc nl) L) us us') :
    List.Forall₂ (UseM (Loc nl') L) us us' := by
  refine forall₂_imp (fun u u' hh => ⟨?_, hh.2⟩) h
  have h5 := hh.1
  generalize u.ref = r at h5 ⊢
  generalize u'.ref = r' at h5 ⊢
  cases r <;> cases r' <;> first | exact h5 | exact loc_mono hl List.prefix_rfl h5

theorem matches_mono {nl nl' nv nv' : Nat} (hl : nl ≤ nl') (hv : nv ≤ nv') {L c c' L'}
    (h : Matches (W := W) (V := V) (Loc nl) nv L c c' L') : Matches (Loc nl') nv' L c c' L' := by
  have refM : ∀ {L r r'}, RefM (Loc nl) L r r' → RefM (Loc nl') L r r' := by
    intro L r r' h
    cases r <;> cases r' <;> first | exact h | exact loc_mono hl List.prefix_rfl h
  have useM : ∀ {L us us'}, List.Forall₂ (UseM (Loc nl) L) us us' → List.Forall₂ (UseM (Loc nl') L) us us' :=
    fun h => forall₂_imp (fun _ _ h => ⟨refM h.1, h.2⟩) h
  induction h with
  | skip => exact .skip
  | exit => exact .exit
  | seq _ _ i1 i2 => exact .seq i1 i2
  | set h1 h2 h3 h4 => exact .set h1 (Nat.le_trans h2 hv) (refM h3) (useM h4)
  | act h1 => exact .act (useM h1)
  | ite h1 _ h3 _ h5 i1 i2 => exact .ite (useM h1) i1 h3 i2 h5
  | loop h1 _ h3 i1 => exact .loop (useM h1) i1 h3

/-- **The compiler's slots match the variables.** -/
theorem resolve_match (G : List Name) : ∀ (s : Stmt W V) {l lv st sp}, Al (l :: lv) l.live st sp →
    st.globals ⊆ G → declared s ⊆ G → (∀ u ∈ reads s, ∀ n, u.ref = .plain n → ascii n ∈ G → ascii n = n) →
    match resolve s st, specify s sp with
    | none, none => True
    | some (c, st'), some (c', sp') => st'.globals ⊆ G ∧ ∃ A l' lv', Grows l lv st A l' lv' st' sp'
        ∧ Matches (Loc st'.loc) (mark st') l.live c c' (l.live ++ A)
    | _, _ => False := by
  intro s
  have stay : ∀ {l lv st sp}, Al (l :: lv) l.live st sp → Grows l lv st [] l lv st sp := by
    intro l lv st sp h
    exact ⟨by rw [List.append_nil]; exact h, by simp, rfl, rfl, by simp, by simp, Nat.le_refl _, Nat.le_refl _⟩
  induction s with
  | skip => intro l lv st sp h hG _ _; exact ⟨hG, [], l, lv, stay h, by rw [List.append_nil]; exact .skip⟩
  | exit e => intro l lv st sp h hG _ _; exact ⟨hG, [], l, lv, stay h, by rw [List.append_nil]; exact .exit⟩
  | act us f =>
    intro l lv st sp h hG _ hu
    refine ⟨hG, [], l, lv, stay h, ?_⟩
    rw [List.append_nil]
    exact .act (uses_match h fun u hu' n e hg => hu u hu' n e (hG hg))
  | set x asLocal us f =>
    intro l lv st sp h hG _ hu
    obtain ⟨A, l', lv', hgr, hA, hr, hglob⟩ := declare_match h x asLocal
    refine ⟨by rw [hglob]; exact hG, A, l', lv', hgr, ?_⟩
    have hal := hgr.al
    rw [← hgr.live] at hal
    refine .set ?_ ?_ hr ?_
    · rcases hA with rfl | ⟨d, hd, rfl⟩
      · exact Or.inl (List.append_nil _)
      · exact Or.inr ⟨d, hd, rfl⟩
    · have := hgr.al.num
      simp only [mark]
      omega
    · rw [← hgr.live]
      exact uses_match hal fun u hu' n e hg => hu u hu' n e (hG (by rw [← hglob]; exact hg))
  | global n =>
    intro l lv st sp h hG hd _
    have := getLocal_match h n
    cases hr : getLocal st n with
    | some id =>
      cases hr' : lookup sp n with
      | none => rw [hr, hr'] at this; exact this.elim
      | some d =>
        have e1 : resolve (.global n : Stmt W V) st = none := by simp [resolve, isLocal, hr]
        have e2 : specify (.global n : Stmt W V) sp = none := by simp [specify, hr']
        rw [e1, e2]
        trivial
    | none =>
      cases hr' : lookup sp n with
      | some d => rw [hr, hr'] at this; exact this.elim
      | none =>
        have e1 : resolve (.global n : Stmt W V) st = some (.skip, { st with globals := ascii n :: st.globals }) := by
          simp [resolve, isLocal, hr]
        have e2 : specify (.global n : Stmt W V) sp = some (.skip, { sp with globals := ascii n :: sp.globals }) := by
          simp [specify, hr']
        rw [e1, e2]
        refine ⟨?_, [], l, lv, ?_, by rw [List.append_nil]; exact .skip⟩
        · intro x hx
          rcases List.mem_cons.mp hx with rfl | hx
          · exact hd (by simp [declared])
          · exact hG hx
        · refine ⟨?_, by simp, rfl, rfl, by simp, by simp, Nat.le_refl _, Nat.le_refl _⟩
          rw [List.append_nil]
          exact ⟨h.left, h.right, h.entries, h.chain, h.head, h.num, h.loc, by simp only [h.globals], h.fresh⟩
  | seq a b iha ihb =>
    intro l lv st sp h hG hd hu
    have h1 := iha h hG (fun x hx => hd (by simp [declared, hx])) (fun u hu' => hu u (by simp [reads, hu']))
    simp only [resolve, specify]
    cases hr : resolve a st with
    | none =>
      rw [hr] at h1
      cases hr' : specify a sp with
      | none => exact trivial
      | some r' => rw [hr'] at h1; exact h1.elim
    | some r =>
      rw [hr] at h1
      cases hr' : specify a sp with
      | none => rw [hr'] at h1; exact h1.elim
      | some r' =>
        rw [hr'] at h1
        obtain ⟨c, st1⟩ := r
        obtain ⟨c', sp1⟩ := r'
        obtain ⟨hG1, A, l1, lv1, hgr, hM⟩ := h1
        have hal := hgr.al
        rw [← hgr.live] at hal
        have h2 := ihb hal hG1 (fun x hx => hd (by simp [declared, hx])) (fun u hu' => hu u (by simp [reads, hu']))
        simp only [Option.bind_eq_bind, Option.bind_some]
        cases hq : resolve b st1 with
        | none =>
          rw [hq] at h2
          cases hq' : specify b sp1 with
          | none => exact trivial
          | some r' => rw [hq'] at h2; exact h2.elim
        | some q =>
          rw [hq] at h2
          cases hq' : specify b sp1 with
          | none => rw [hq'] at h2; exact h2.elim
          | some q' =>
            rw [hq'] at h2
            obtain ⟨d, st2⟩ := q
            obtain ⟨d', sp2⟩ := q'
            obtain ⟨hG2, B, l2, lv2, hgr2, hM2⟩ := h2
            refine ⟨hG2, A ++ B, l2, lv2, ?_, ?_⟩
            · have hne : lv ≠ [] → lv1 ≠ [] := by
                intro h1 h2
                have := hgr.rest
                rw [h2] at this
                exact h1 (by simpa using this.symm)
              refine ⟨?_, ?_, hgr2.rest.trans hgr.rest, hgr2.keep.trans hgr.keep, ?_, ?_, Nat.le_trans hgr.mark hgr2.mark, Nat.le_trans hgr.loc hgr2.loc⟩
              · rw [← List.append_assoc, ← hgr.live]; exact hgr2.al
              · rw [← List.append_assoc, ← hgr.live]; exact hgr2.live
              · intro h0; rw [hgr2.count (hne h0), hgr.count h0, List.length_append]; omega
              · intro h0; rw [hgr2.ids (hne h0), hgr.ids h0]; simp
            · rw [← List.append_assoc, ← hgr.live]
              refine .seq (L1 := l1.live) ?_ hM2
              rw [hgr.live]
              exact matches_mono hgr2.loc hgr2.mark hM
  | ite us g a ka b kb iha ihb =>
    intro l lv st sp h hG hd hu
    have h1 := iha (open_match h) hG (fun x hx => hd (by simp [declared, hx])) (fun u hu' => hu u (by simp [reads, hu']))
    have huses := uses_match h (us := us) fun u hu' n e hg => hu u (by simp [reads, hu']) n e (hG hg)
    simp only [resolve, specify]
    cases hr : resolve a («open» st) with
    | none =>
      rw [hr] at h1
      cases hr' : specify a sp.open with
      | none => exact trivial
      | some r' => rw [hr'] at h1; exact h1.elim
    | some r =>
      rw [hr] at h1
      cases hr' : specify a sp.open with
      | none => rw [hr'] at h1; exact h1.elim
      | some r' =>
        rw [hr'] at h1
        obtain ⟨c, st1⟩ := r
        obtain ⟨c', sp1⟩ := r'
        obtain ⟨hG1, A, l1, lv1, hgr, hM⟩ := h1
        obtain ⟨l2, lv2, rfl, hends, hlive, hrest, hkp, heq, hal, hmk1, hmk, hloc, hglob⟩ := close_match h.left.symm h.num hgr
        have hal2 := hal
        rw [← hlive] at hal2
        have h2 := ihb (open_match hal2) (by simp only [«open»]; rw [hglob]; exact hG1) (fun x hx => hd (by simp [declared, hx])) (fun u hu' => hu u (by simp [reads, hu']))
        simp only [Option.bind_eq_bind, Option.bind_some]
        cases hq : resolve b («open» (close st1).2) with
        | none =>
          rw [hq] at h2
          cases hq' : specify b sp1.close.2.open with
          | none => exact trivial
          | some r' => rw [hq'] at h2; exact h2.elim
        | some q =>
          rw [hq] at h2
          cases hq' : specify b sp1.close.2.open with
          | none => rw [hq'] at h2; exact h2.elim
          | some q' =>
            rw [hq'] at h2
            obtain ⟨d, st3⟩ := q
            obtain ⟨d', sp3⟩ := q'
            obtain ⟨hG3, B, l3, lv3, hgr3, hM3⟩ := h2
            have hl3 : (l2 :: lv2).map Level.b = (close st1).2.block :: (close st1).2.stack := hal.left.symm
            obtain ⟨l4, lv4, rfl, hends4, hlive4, hrest4, hkp4, heq4, hal4, hmk41, hmk4, hloc4, hglob4⟩ :=
              close_match hl3 (by rw [hal.num, hlive]) hgr3
            refine ⟨by rw [hglob4]; exact hG3, [], l4, lv4, ?_, ?_⟩
            · have hne : lv ≠ [] → l4 = l := by
                intro h1
                have h2 : lv2 ≠ [] := by
                  intro h2
                  rw [h2] at hrest
                  exact h1 (by simpa using hrest.symm)
                rw [heq4 h2, heq h1]
              refine ⟨?_, ?_, hrest4.trans hrest, hkp4.trans hkp, ?_, ?_, Nat.le_trans hmk hmk4, ?_⟩
              · rw [List.append_nil, ← hlive]; exact hal4
              · rw [List.append_nil, hlive4, hlive]
              · intro h0; rw [hne h0]; simp
              · intro h0; rw [hne h0]; simp
              · have e1 : st.loc ≤ st1.loc := hgr.loc
                have e2 : (close st1).2.loc ≤ st3.loc := hgr3.loc
                show st.loc ≤ (close st3).2.loc
                omega
            · rw [List.append_nil]
              have e2 : (close st1).2.loc ≤ st3.loc := hgr3.loc
              have e3 : mark (close st1).2 ≤ mark st3 := hgr3.mark
              have hM3' : Matches (Loc st3.loc) (mark st3) l.live d d' (l.live ++ B) := by
                have := hM3
                simp only [hlive] at this
                exact this
              rw [hlive] at hends4
              refine .ite (A := A) (B := B) ?_ (matches_mono ?_ ?_ hM) hends (matches_mono ?_ hmk41 hM3') hends4
              · have : st.loc ≤ (close st3).2.loc := by
                  have e1 : st.loc ≤ st1.loc := hgr.loc
                  omega
                exact useM_mono this huses
              · show st1.loc ≤ (close st3).2.loc
                omega
              · show mark st1 ≤ mark (close st3).2
                omega
              · show st3.loc ≤ (close st3).2.loc
                omega
  | loop us g a ka iha =>
    intro l lv st sp h hG hd hu
    have h1 := iha (open_match h) hG (fun x hx => hd (by simp [declared, hx])) (fun u hu' => hu u (by simp [reads, hu']))
    have huses := uses_match h (us := us) fun u hu' n e hg => hu u (by simp [reads, hu']) n e (hG hg)
    simp only [resolve, specify]
    cases hr : resolve a («open» st) with
    | none =>
      rw [hr] at h1
      cases hr' : specify a sp.open with
      | none => exact trivial
      | some r' => rw [hr'] at h1; exact h1.elim
    | some r =>
      rw [hr] at h1
      cases hr' : specify a sp.open with
      | none => rw [hr'] at h1; exact h1.elim
      | some r' =>
        rw [hr'] at h1
        obtain ⟨c, st1⟩ := r
        obtain ⟨c', sp1⟩ := r'
        obtain ⟨hG1, A, l1, lv1, hgr, hM⟩ := h1
        obtain ⟨l2, lv2, rfl, hends, hlive, hrest, hkp, heq, hal, hmk1, hmk, hloc, hglob⟩ := close_match h.left.symm h.num hgr
        have e1 : st.loc ≤ (close st1).2.loc := by
          have e1 : st.loc ≤ st1.loc := hgr.loc
          omega
        refine ⟨by rw [hglob]; exact hG1, [], l2, lv2, ?_, ?_⟩
        · refine ⟨?_, ?_, hrest, hkp, ?_, ?_, hmk, e1⟩
          · rw [List.append_nil]; exact hal
          · rw [List.append_nil, hlive]
          · intro h0; rw [heq h0]; simp
          · intro h0; rw [heq h0]; simp
        · rw [List.append_nil]
          refine .loop (A := A) (useM_mono e1 huses) (matches_mono ?_ hmk1 hM) hends
          show st1.loc ≤ (close st1).2.loc
          omega

end Sieve.Scope
