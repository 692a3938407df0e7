import Verif.MatchVarSpec
import Verif.StoreProps

/-!
# Lemmas for match variables
-/

namespace Sieve.MatchVar

open Sieve.Store (setMatch clearMatch)
open Sieve.SetVar (Variable)

variable {W : Type}

/-! ## The compiler -/

/-- Numbers only get more bits. -/
def Grows (ms ms' : List (Option Nat)) : Prop :=
  ∀ t m : Nat, ms[t]? = some (some m) → ∃ m' : Nat, ms'[t]? = some (some m') ∧ ∀ i, m.testBit i = true → m'.testBit i = true

theorem Grows.refl (ms) : Grows ms ms := fun _ m h => ⟨m, h, fun _ h => h⟩

theorem Grows.trans {a b c} (h : Grows a b) (h' : Grows b c) : Grows a c := by
  intro t m e
  obtain ⟨m1, e1, k1⟩ := h t m e
  obtain ⟨m2, e2, k2⟩ := h' t m1 e1
  exact ⟨m2, e2, fun i hi => k2 i (k1 i hi)⟩

theorem grows_set {ms : List (Option Nat)} {p m n : Nat} (h : ms[p]? = some (some m)) : Grows ms (ms.set p (some (m ||| 1 <<< n))) := by
  intro t k e
  by_cases hp : p = t
  · subst hp
    rw [h] at e
    injection e with e
    injection e with e
    subst e
    refine ⟨m ||| 1 <<< n, ?_, ?_⟩
    · rw [List.getElem?_set_self (List.getElem?_eq_some_iff.1 h).1]
    · intro i hi
      rw [Nat.testBit_or, hi]
      rfl
  · exact ⟨k, by rw [List.getElem?_set_ne hp]; exact e, fun _ h => h⟩

theorem testBit_new (m n : Nat) : (m ||| 1 <<< n).testBit n = true := by
  rw [Nat.testBit_or, Nat.one_shiftLeft, Nat.testBit_two_pow_self, Bool.or_true]

theorem kinds_set {ms : List (Option Nat)} {p m k : Nat} (h : ms[p]? = some (some m)) :
    (ms.set p (some k)).map Option.isSome = ms.map Option.isSome := by
  apply List.ext_getElem?
  intro i
  rw [List.getElem?_map, List.getElem?_map]
  by_cases hp : p = i
  · subst hp
    rw [List.getElem?_set_self (List.getElem?_eq_some_iff.1 h).1, h]
    rfl
  · rw [List.getElem?_set_ne hp]

theorem mark_ok (n : Nat) : ∀ (ps : List Nat) (ms : List (Option Nat)) (v : Nat),
    Grows ms (mark n ps ms v).2.1 ∧ (mark n ps ms v).2.1.map Option.isSome = ms.map Option.isSome ∧
    ((∀ p ∈ ps, (ms.map Option.isSome)[p]? = some true) → (mark n ps ms v).1 = true ∧
      ∀ p ∈ ps, ∃ m, (mark n ps ms v).2.1[p]? = some (some m) ∧ m.testBit n = true)
  | [], ms, v => ⟨.refl _, rfl, fun _ => ⟨rfl, by simp⟩⟩
  | p :: ps, ms, v => by
    unfold mark
    split
    · rename_i m hm
      obtain ⟨h1, h2, h3⟩ := mark_ok n ps (ms.set p (some (m ||| 1 <<< n))) (m ||| 1 <<< n)
      rw [kinds_set hm] at h2 h3
      refine ⟨(grows_set hm).trans h1, h2, fun h => ?_⟩
      obtain ⟨h4, h5⟩ := h3 fun q hq => h q (by simp [hq])
      refine ⟨h4, fun q hq => ?_⟩
      rcases List.mem_cons.1 hq with rfl | hq
      · obtain ⟨m', e, k⟩ := h1 q (m ||| 1 <<< n) (List.getElem?_set_self (List.getElem?_eq_some_iff.1 hm).1)
        exact ⟨m', e, k n (testBit_new m n)⟩
      · exact h5 q hq
    · rename_i hno
      refine ⟨.refl _, rfl, fun h => ?_⟩
      have := h p (by simp)
      rw [List.getElem?_map] at this
      cases hp : ms[p]? with
      | none => rw [hp] at this; cases this
      | some o =>
        cases o with
        | none => rw [hp] at this; cases this
        | some m => exact absurd hp (hno m)

def Tidy (bs : List Block) : Prop := ∀ b ∈ bs, b.tests = [] → b.vars = 0

theorem markIn_ok (n : Nat) : ∀ (bs : List Block) (ms : List (Option Nat)),
    Grows ms (markIn n bs ms).2.2 ∧ (markIn n bs ms).2.2.map Option.isSome = ms.map Option.isSome ∧
    (markIn n bs ms).2.1.map Block.tests = bs.map Block.tests ∧ (Tidy bs → Tidy (markIn n bs ms).2.1) ∧
    ∀ B, (bs.map Block.tests).find? (fun b => !b.isEmpty) = some B → (∀ t ∈ B, (ms.map Option.isSome)[t]? = some true) →
      (markIn n bs ms).1 = true ∧ ∀ t ∈ B, ∃ m, (markIn n bs ms).2.2[t]? = some (some m) ∧ m.testBit n = true
  | [], ms => ⟨.refl _, rfl, rfl, id, by simp⟩
  | b :: bs, ms => by
    unfold markIn
    split
    · rename_i hb
      obtain ⟨h1, h2, h3, h4, h5⟩ := markIn_ok n bs ms
      refine ⟨h1, h2, by simp [h3], ?_, ?_⟩
      · intro h x hx
        rcases List.mem_cons.1 hx with rfl | hx
        · exact h x (by simp)
        · exact h4 (fun y hy => h y (by simp [hy])) x hx
      · intro B hB
        rw [List.map_cons, List.find?_cons] at hB
        simp only [hb, List.isEmpty_nil, Bool.not_true] at hB
        exact h5 B hB
    · rename_i hb
      obtain ⟨h1, h2, h3⟩ := mark_ok n b.tests ms b.vars
      refine ⟨h1, h2, rfl, ?_, ?_⟩
      · intro h x hx
        rcases List.mem_cons.1 hx with rfl | hx
        · exact fun e => absurd e hb
        · exact h x (by simp [hx])
      · intro B hB
        rw [List.map_cons, List.find?_cons] at hB
        have e : b.tests.isEmpty = false := by
          cases h : b.tests with
          | nil => exact absurd h hb
          | cons _ _ => rfl
        simp only [e, Bool.not_false, Option.some.injEq] at hB
        subst hB
        exact h3

/-- The state of the compiler at a place. -/
structure At (st : St) (p : Place) : Prop where
  kinds : p.kinds = st.masks.map Option.isSome
  blocks : p.blocks = st.blocks.map Block.tests
  tidy : Tidy st.blocks

/-- A later state. -/
structure Later (st st' : St) : Prop where
  masks : Grows st.masks st'.masks
  max : st.max ≤ st'.max

theorem Later.refl (st) : Later st st := ⟨.refl _, Nat.le_refl _⟩

theorem Later.trans {a b c : St} (h : Later a b) (h' : Later b c) : Later a c := ⟨h.masks.trans h'.masks, Nat.le_trans h.max h'.max⟩

theorem var_at {n st r st'} (h : var n st = some (r, st')) {p} (ha : At st p) : At st' p ∧ Later st st' := by
  obtain ⟨h1, h2, h3, h4, _⟩ := markIn_ok n st.blocks st.masks
  unfold var at h
  split at h
  · simp only at h
    split at h <;> simp only [Option.some.injEq, Prod.mk.injEq] at h <;> obtain ⟨rfl, rfl⟩ := h
    · exact ⟨⟨by rw [ha.kinds]; exact h2.symm, by rw [ha.blocks]; exact h3.symm, h4 ha.tidy⟩, h1, Nat.le_max_left _ _⟩
    · exact ⟨⟨by rw [ha.kinds]; exact h2.symm, by rw [ha.blocks]; exact h3.symm, h4 ha.tidy⟩, h1, Nat.le_refl _⟩
  · cases h

theorem vars_at : ∀ {ns st rs st'}, vars ns st = some (rs, st') → ∀ {p}, At st p → At st' p ∧ Later st st'
  | [], st, rs, st', h, p, ha => by
    simp only [vars, Option.some.injEq, Prod.mk.injEq] at h
    obtain ⟨rfl, rfl⟩ := h
    exact ⟨ha, .refl _⟩
  | n :: ns, st, rs, st', h, p, ha => by
    simp only [vars, bind, Option.bind_eq_some_iff, pure, Option.some.injEq] at h
    obtain ⟨⟨r, s1⟩, h1, ⟨rs', s2⟩, h2, h3⟩ := h
    simp only [Prod.mk.injEq] at h3
    obtain ⟨rfl, rfl⟩ := h3
    obtain ⟨a1, l1⟩ := var_at h1 ha
    obtain ⟨a2, l2⟩ := vars_at h2 a1
    exact ⟨a2, l1.trans l2⟩

theorem note_at {st p} (ha : At st p) : At (noteTest st) p.note ∧ Later st (noteTest st) := by
  obtain ⟨hk, hb, ht⟩ := ha
  unfold noteTest Place.note
  cases hs : st.blocks with
  | nil =>
    rw [hs] at hb
    simp only [hb, List.map_nil]
    exact ⟨⟨hk, by rw [hb, hs], ht⟩, .refl _⟩
  | cons b bs =>
    rw [hs] at hb
    simp only [hb, List.map_cons]
    refine ⟨⟨hk, by simp [hk], ?_⟩, ⟨.refl _, Nat.le_refl _⟩⟩
    intro x hx
    rcases List.mem_cons.1 hx with rfl | hx
    · intro e; simp at e
    · exact ht x (by rw [hs]; simp [hx])

theorem grows_append (ms ms' : List (Option Nat)) : Grows ms (ms ++ ms') := by
  intro t m h
  exact ⟨m, by rw [List.getElem?_append_left (List.getElem?_eq_some_iff.1 h).1]; exact h, fun _ h => h⟩

theorem emit_at {st p m} (ha : At st p) : At (emit m st) (p.done m.isSome) ∧ Later st (emit m st) :=
  ⟨⟨by simp [Place.done, emit, ha.kinds], ha.blocks, ha.tidy⟩, ⟨grows_append _ _, Nat.le_refl _⟩⟩

theorem atom_at {a : Atom W Nat Bool} {st c st'} (h : atom a st = some (c, st')) {p} (ha : At st p) :
    At st' (afterAtom a p) ∧ Later st st' := by
  simp only [atom, bind, Option.bind_eq_some_iff] at h
  obtain ⟨⟨pre, s1⟩, h1, h2⟩ := h
  obtain ⟨a1, l1⟩ := vars_at h1 ha
  unfold afterAtom
  simp only at h2
  split at h2
  · rename_i ht
    rw [if_pos ht]
    simp only [Option.bind_eq_some_iff, pure, Option.some.injEq] at h2
    obtain ⟨⟨post, s2⟩, h2, h3⟩ := h2
    simp only [Prod.mk.injEq] at h3
    obtain ⟨rfl, rfl⟩ := h3
    obtain ⟨a2, l2⟩ := note_at a1
    obtain ⟨a3, l3⟩ := vars_at h2 a2
    obtain ⟨a4, l4⟩ := emit_at (m := some 0) a3
    exact ⟨a4, l1.trans (l2.trans (l3.trans l4))⟩
  · rename_i ht
    rw [if_neg ht]
    simp only [Option.bind_eq_some_iff, pure, Option.some.injEq] at h2
    obtain ⟨⟨post, s2⟩, h2, h3⟩ := h2
    simp only [Prod.mk.injEq] at h3
    obtain ⟨rfl, rfl⟩ := h3
    obtain ⟨a3, l3⟩ := vars_at h2 a1
    exact ⟨a3, l1.trans l3⟩

theorem cond_at (t : Cond W Nat Bool) : ∀ {st c st'}, cond t st = some (c, st') → ∀ {p}, At st p →
    At st' (afterCond t p) ∧ Later st st' := by
  induction t with
  | atom a =>
    intro st c st' h p ha
    simp only [cond, bind, Option.bind_eq_some_iff, pure, Option.some.injEq] at h
    obtain ⟨⟨a', s1⟩, h1, h2⟩ := h
    simp only [Prod.mk.injEq] at h2
    obtain ⟨rfl, rfl⟩ := h2
    exact atom_at h1 ha
  | not c ih =>
    intro st c st' h p ha
    simp only [cond, bind, Option.bind_eq_some_iff, pure, Option.some.injEq] at h
    obtain ⟨⟨a', s1⟩, h1, h2⟩ := h
    simp only [Prod.mk.injEq] at h2
    obtain ⟨rfl, rfl⟩ := h2
    exact ih h1 ha
  | and c d ihc ihd =>
    intro st c st' h p ha
    simp only [cond, bind, Option.bind_eq_some_iff, pure, Option.some.injEq] at h
    obtain ⟨⟨a', s1⟩, h1, ⟨b', s2⟩, h2, h3⟩ := h
    simp only [Prod.mk.injEq] at h3
    obtain ⟨rfl, rfl⟩ := h3
    obtain ⟨a1, l1⟩ := ihc h1 ha
    obtain ⟨a2, l2⟩ := ihd h2 a1
    exact ⟨a2, l1.trans l2⟩
  | or c d ihc ihd =>
    intro st c st' h p ha
    simp only [cond, bind, Option.bind_eq_some_iff, pure, Option.some.injEq] at h
    obtain ⟨⟨a', s1⟩, h1, ⟨b', s2⟩, h2, h3⟩ := h
    simp only [Prod.mk.injEq] at h3
    obtain ⟨rfl, rfl⟩ := h3
    obtain ⟨a1, l1⟩ := ihc h1 ha
    obtain ⟨a2, l2⟩ := ihd h2 a1
    exact ⟨a2, l1.trans l2⟩

theorem open_at {st p} (ha : At st p) : At («open» st) p.enter ∧ Later st («open» st) :=
  ⟨⟨ha.kinds, by simp [Place.enter, «open», ha.blocks], by
    intro x hx
    rcases List.mem_cons.1 hx with rfl | hx
    · exact fun _ => rfl
    · exact ha.tidy x hx⟩, ⟨.refl _, Nat.le_refl _⟩⟩

theorem close_at {st p} (ha : At st p) : At (close st).2 p.leave ∧ Later st (close st).2 := by
  unfold close Place.leave
  cases hs : st.blocks with
  | nil => exact ⟨⟨ha.kinds, by simp [ha.blocks, hs], ha.tidy⟩, .refl _⟩
  | cons b bs =>
    refine ⟨⟨ha.kinds, by simp [ha.blocks, hs], fun x hx => ha.tidy x (by rw [hs]; simp [hx])⟩, ⟨.refl _, Nat.le_refl _⟩⟩

theorem stmt_at (s : Stmt W) : ∀ {st c st'}, stmt s st = some (c, st') → ∀ {p}, At st p → At st' (after s p) ∧ Later st st' := by
  induction s with
  | skip =>
    intro st c st' h p ha
    simp only [stmt, Option.some.injEq, Prod.mk.injEq] at h
    obtain ⟨rfl, rfl⟩ := h
    exact ⟨ha, .refl _⟩
  | exit again =>
    intro st c st' h p ha
    simp only [stmt, Option.some.injEq, Prod.mk.injEq] at h
    obtain ⟨rfl, rfl⟩ := h
    exact ⟨ha, .refl _⟩
  | seq a b iha ihb =>
    intro st c st' h p ha
    simp only [stmt, bind, Option.bind_eq_some_iff, pure, Option.some.injEq] at h
    obtain ⟨⟨a', s1⟩, h1, ⟨b', s2⟩, h2, h3⟩ := h
    simp only [Prod.mk.injEq] at h3
    obtain ⟨rfl, rfl⟩ := h3
    obtain ⟨a1, l1⟩ := iha h1 ha
    obtain ⟨a2, l2⟩ := ihb h2 a1
    exact ⟨a2, l1.trans l2⟩
  | act us f =>
    intro st c st' h p ha
    simp only [stmt, bind, Option.bind_eq_some_iff, pure, Option.some.injEq] at h
    obtain ⟨⟨a', s1⟩, h1, h2⟩ := h
    simp only [Prod.mk.injEq] at h2
    obtain ⟨rfl, rfl⟩ := h2
    exact vars_at h1 ha
  | delete us f =>
    intro st c st' h p ha
    simp only [stmt, bind, Option.bind_eq_some_iff, pure, Option.some.injEq] at h
    obtain ⟨⟨a', s1⟩, h1, h2⟩ := h
    simp only [Prod.mk.injEq] at h2
    obtain ⟨rfl, rfl⟩ := h2
    obtain ⟨a1, l1⟩ := note_at ha
    obtain ⟨a2, l2⟩ := vars_at h1 a1
    obtain ⟨a3, l3⟩ := emit_at (m := none) a2
    exact ⟨a3, l1.trans (l2.trans l3)⟩
  | ite t a b iha ihb =>
    intro st c st' h p ha
    simp only [stmt, bind, Option.bind_eq_some_iff, pure, Option.some.injEq] at h
    obtain ⟨⟨t', s0⟩, h0, ⟨a', s1⟩, h1, ⟨b', s2⟩, h2, h3⟩ := h
    simp only [Prod.mk.injEq] at h3
    obtain ⟨rfl, rfl⟩ := h3
    obtain ⟨a0, l0⟩ := cond_at t h0 ha
    obtain ⟨a1, l1⟩ := iha h1 a0
    obtain ⟨a2, l2⟩ := ihb h2 a1
    exact ⟨a2, l0.trans (l1.trans l2)⟩
  | block a k iha =>
    intro st c st' h p ha
    simp only [stmt, bind, Option.bind_eq_some_iff, pure, Option.some.injEq] at h
    obtain ⟨⟨a', s1⟩, h1, h2⟩ := h
    simp only [Prod.mk.injEq] at h2
    obtain ⟨rfl, rfl⟩ := h2
    obtain ⟨a0, l0⟩ := open_at ha
    obtain ⟨a1, l1⟩ := iha h1 a0
    obtain ⟨a2, l2⟩ := close_at a1
    exact ⟨a2, l0.trans (l1.trans l2)⟩
  | loop us g a iha =>
    intro st c st' h p ha
    simp only [stmt, bind, Option.bind_eq_some_iff, pure, Option.some.injEq] at h
    obtain ⟨⟨us', s0⟩, h0, ⟨a', s1⟩, h1, h3⟩ := h
    simp only [Prod.mk.injEq] at h3
    obtain ⟨rfl, rfl⟩ := h3
    obtain ⟨a0, l0⟩ := vars_at h0 ha
    obtain ⟨a1, l1⟩ := iha h1 a0
    exact ⟨a1, l0.trans l1⟩

/-! ## Execution -/

/-- The variables after the last successful match. -/
structure Kept (F : St) (l : Option Success) (vs : List Variable) : Prop where
  length : vs.length = F.max
  none : l = none → ∀ (i : Nat) v, vs[i]? = some v → v = .str []
  some : ∀ s, l = some s → s.fresh = true → ∀ (m i : Nat) c, F.masks[s.test]? = some (some m) → m.testBit i = true →
    s.caps[i]? = some c → i < F.max → vs[i]? = some (.str c)

theorem var_value {n st r st'} (h : var n st = some (r, st')) {p} (ha : At st p) {F} (hF : Later st' F) {l vs}
    (hk : Kept F l vs) {v} (hr : guarded p l n = some v) : get vs r = v := by
  obtain ⟨_, _, _, _, h5⟩ := markIn_ok n st.blocks st.masks
  cases l with
  | none =>
    simp only [guarded, Option.some.injEq] at hr
    subst hr
    cases r with
    | none => rfl
    | some k =>
      unfold get
      simp only
      split
      · rename_i x hx; exact hk.none rfl _ _ hx
      · rfl
  | some s =>
    simp only [guarded] at hr
    split at hr
    · cases hr
    · rename_i B hB
      split at hr
      · rename_i hc
        obtain ⟨hf, ht, hall⟩ := hc
        rw [ha.blocks] at hB
        rw [ha.kinds] at hall
        obtain ⟨h6, h7⟩ := h5 B hB hall
        obtain ⟨m, e, hb⟩ := h7 _ ht
        unfold var at h
        split at h
        · simp only [h6, if_true, Option.some.injEq, Prod.mk.injEq] at h
          obtain ⟨rfl, rfl⟩ := h
          obtain ⟨m', e', hm⟩ := hF.masks _ _ e
          have hmax : n < F.max := by
            have := hF.max
            simp only at this
            omega
          simp only [Option.map_eq_some_iff] at hr
          obtain ⟨c, hc, rfl⟩ := hr
          have := hk.some s rfl hf m' n c e' (hm n hb) hc hmax
          simp [get, this]
        · cases h
      · cases hr

theorem vars_value : ∀ {ns st rs st'}, vars ns st = some (rs, st') → ∀ {p}, At st p → ∀ {F}, Later st' F → ∀ {l vs},
    Kept F l vs → ∀ {xs}, reads guarded p l ns = some xs → rs.map (get vs) = xs
  | [], st, rs, st', h, p, ha, F, hF, l, vs, hk, xs, hr => by
    simp only [vars, Option.some.injEq, Prod.mk.injEq] at h
    obtain ⟨rfl, rfl⟩ := h
    simp only [reads, Option.some.injEq] at hr
    subst hr
    rfl
  | n :: ns, st, rs, st', h, p, ha, F, hF, l, vs, hk, xs, hr => by
    simp only [vars, bind, Option.bind_eq_some_iff, pure, Option.some.injEq] at h
    obtain ⟨⟨r, s1⟩, h1, ⟨rs', s2⟩, h2, h3⟩ := h
    simp only [Prod.mk.injEq] at h3
    obtain ⟨rfl, rfl⟩ := h3
    simp only [reads, bind, Option.bind_eq_some_iff, pure, Option.some.injEq] at hr
    obtain ⟨x, hx, ys, hy, rfl⟩ := hr
    obtain ⟨a1, l1⟩ := var_at h1 ha
    obtain ⟨a2, l2⟩ := vars_at h2 a1
    rw [List.map_cons, var_value h1 ha (l2.trans hF) hk hx, vars_value h2 a1 hF hk hy]

theorem mem_picked {m : Nat} {caps : List Str} {i : Nat} {c : Str} : (i, c) ∈ picked m caps ↔ m.testBit i = true ∧ caps[i]? = some c := by
  simp only [picked, List.mem_map, List.mem_filter, List.mem_zipIdx_iff_getElem?, Prod.exists, Prod.mk.injEq]
  constructor
  · rintro ⟨a, b, ⟨h1, h2⟩, rfl, rfl⟩; exact ⟨h2, h1⟩
  · rintro ⟨h1, h2⟩; exact ⟨c, i, ⟨h2, h1⟩, rfl, rfl⟩

theorem setMatch_length : ∀ (l : List (Nat × Str)) (vs : List Variable), (setMatch vs l).length = vs.length
  | [], _ => rfl
  | (i, t) :: l, vs => by rw [setMatch, setMatch_length l]; simp

/-- A variable given one text only has this text. -/
theorem setMatch_get {i : Nat} {c : Str} : ∀ (l : List (Nat × Str)) (vs : List Variable), i < vs.length →
    (∀ d, (i, d) ∈ l → d = c) → ((i, c) ∈ l ∨ vs[i]? = some (.str c)) → (setMatch vs l)[i]? = some (.str c)
  | [], vs, _, _, h => by
    rcases h with h | h
    · cases h
    · exact h
  | (j, t) :: l, vs, hi, hu, h => by
    rw [setMatch]
    refine setMatch_get l _ (by simpa using hi) (fun d hd => hu d (by simp [hd])) ?_
    by_cases hj : j = i
    · subst hj
      refine .inr ?_
      rw [List.getElem?_set_self hi, hu t (by simp)]
    · rcases h with h | h
      · refine .inl ?_
        rcases List.mem_cons.1 h with h | h
        · injection h with h; exact absurd h.symm hj
        · exact h
      · exact .inr (by rw [List.getElem?_set_ne hj]; exact h)

theorem setMatch_picked {m : Nat} {caps : List Str} {vs : List Variable} {i : Nat} {c : Str} (hi : i < vs.length)
    (hm : m.testBit i = true) (hc : caps[i]? = some c) : (setMatch vs (picked m caps))[i]? = some (.str c) := by
  refine setMatch_get _ _ hi ?_ (.inl (mem_picked.2 ⟨hm, hc⟩))
  intro d hd
  have := (mem_picked.1 hd).2
  rw [hc] at this
  injection this with this
  exact this.symm

theorem atom_runs {a : Atom W Nat Bool} {st c st'} (h : atom a st = some (c, st')) {p} (ha : At st p) {F} (hF : Later st' F)
    {l vs} (hk : Kept F l vs) {w w' l' b} (hs : semAtom guarded a p w l = some (w', l', b)) :
    ∃ vs', test F.masks c w vs = (w', vs', b) ∧ Kept F l' vs' := by
  simp only [semAtom, bind, Option.bind_eq_some_iff] at hs
  obtain ⟨xs, hx, ys, hy, hs⟩ := hs
  simp only [atom, bind, Option.bind_eq_some_iff] at h
  obtain ⟨⟨pre, s1⟩, h1, h2⟩ := h
  obtain ⟨a1, l1⟩ := vars_at h1 ha
  simp only at h2
  split at h2
  · rename_i ht
    rw [if_pos ht] at hy
    simp only [Option.bind_eq_some_iff, pure, Option.some.injEq] at h2
    obtain ⟨⟨post, s2⟩, h2, h3⟩ := h2
    simp only [Prod.mk.injEq] at h3
    obtain ⟨rfl, rfl⟩ := h3
    obtain ⟨a2, l2⟩ := note_at a1
    obtain ⟨a3, l3⟩ := vars_at h2 a2
    obtain ⟨a4, l4⟩ := emit_at (m := some 0) a3
    have e1 := vars_value h1 ha (l2.trans (l3.trans (l4.trans hF))) hk hx
    have e2 := vars_value h2 a2 (l4.trans hF) hk hy
    unfold test
    simp only [List.map_append, e1, e2]
    cases hf : a.f w (xs ++ ys) with
    | mk w1 o =>
      rw [hf] at hs
      cases o with
      | none =>
        simp only [pure, Option.some.injEq, Prod.mk.injEq] at hs
        obtain ⟨rfl, rfl, rfl⟩ := hs
        exact ⟨vs, rfl, hk⟩
      | some caps =>
        simp only [pure, Option.some.injEq, Prod.mk.injEq, ht, if_true] at hs
        obtain ⟨rfl, rfl, rfl⟩ := hs
        have hlen : p.kinds.length = s1.masks.length := by rw [a1.kinds]; simp
        have hlen2 : s2.masks.length = s1.masks.length := by
          have h3 := a3.kinds
          have h2' := a2.kinds
          rw [h2'] at h3
          have := congrArg List.length h3
          simp only [List.length_map] at this
          rw [← this]
          unfold noteTest
          split <;> rfl
        have hmask : ∃ m, F.masks[s1.masks.length]? = some (some m) := by
          have : (emit (some 0) s2).masks[s1.masks.length]? = some (some 0) := by
            simp [emit, ← hlen2]
          obtain ⟨m, hm, _⟩ := hF.masks _ _ this
          exact ⟨m, hm⟩
        obtain ⟨m, hm⟩ := hmask
        simp only [hm]
        refine ⟨_, rfl, ?_⟩
        refine ⟨by rw [setMatch_length]; exact hk.length, by simp, ?_⟩
        intro s hs _ m' i c hm' hb hc hi
        injection hs with hs
        subst hs
        simp only at hm' hc
        rw [hlen, hm] at hm'
        injection hm' with hm'
        injection hm' with hm'
        subst hm'
        exact setMatch_picked (by rw [hk.length]; exact hi) hb hc
  · rename_i ht
    rw [if_neg ht] at hy
    simp only [Option.bind_eq_some_iff, pure, Option.some.injEq] at h2
    obtain ⟨⟨post, s2⟩, h2, h3⟩ := h2
    simp only [Prod.mk.injEq] at h3
    obtain ⟨rfl, rfl⟩ := h3
    obtain ⟨a3, l3⟩ := vars_at h2 a1
    have e1 := vars_value h1 ha (l3.trans hF) hk hx
    have e2 := vars_value h2 a1 hF hk hy
    unfold test
    simp only [List.map_append, e1, e2]
    cases hf : a.f w (xs ++ ys) with
    | mk w1 o =>
      rw [hf] at hs
      cases o with
      | none =>
        simp only [pure, Option.some.injEq, Prod.mk.injEq] at hs
        obtain ⟨rfl, rfl, rfl⟩ := hs
        exact ⟨vs, rfl, hk⟩
      | some caps =>
        simp only [pure, Option.some.injEq, Prod.mk.injEq, if_neg ht] at hs
        obtain ⟨rfl, rfl, rfl⟩ := hs
        exact ⟨vs, rfl, hk⟩

theorem cond_runs (t : Cond W Nat Bool) : ∀ {st c st'}, cond t st = some (c, st') → ∀ {p}, At st p → ∀ {F}, Later st' F →
    ∀ {l vs}, Kept F l vs → ∀ {w w' l' b}, semCond guarded t p w l = some (w', l', b) →
    ∃ vs', check F.masks c w vs = (w', vs', b) ∧ Kept F l' vs' := by
  induction t with
  | atom a =>
    intro st c st' h p ha F hF l vs hk w w' l' b hs
    simp only [cond, bind, Option.bind_eq_some_iff, pure, Option.some.injEq] at h
    obtain ⟨⟨a', s1⟩, h1, h2⟩ := h
    simp only [Prod.mk.injEq] at h2
    obtain ⟨rfl, rfl⟩ := h2
    exact atom_runs h1 ha hF hk hs
  | not c ih =>
    intro st c st' h p ha F hF l vs hk w w' l' b hs
    simp only [cond, bind, Option.bind_eq_some_iff, pure, Option.some.injEq] at h
    obtain ⟨⟨a', s1⟩, h1, h2⟩ := h
    simp only [Prod.mk.injEq] at h2
    obtain ⟨rfl, rfl⟩ := h2
    simp only [semCond, bind, Option.bind_eq_some_iff, pure, Option.some.injEq] at hs
    obtain ⟨⟨w1, l1, b1⟩, h2, h3⟩ := hs
    simp only [Prod.mk.injEq] at h3
    obtain ⟨rfl, rfl, rfl⟩ := h3
    obtain ⟨vs', e, k⟩ := ih h1 ha hF hk h2
    exact ⟨vs', by rw [check, e], k⟩
  | and c d ihc ihd =>
    intro st c st' h p ha F hF l vs hk w w' l' b hs
    simp only [cond, bind, Option.bind_eq_some_iff, pure, Option.some.injEq] at h
    obtain ⟨⟨a', s1⟩, h1, ⟨b', s2⟩, h2, h3⟩ := h
    simp only [Prod.mk.injEq] at h3
    obtain ⟨rfl, rfl⟩ := h3
    obtain ⟨a1, l1⟩ := cond_at _ h1 ha
    obtain ⟨a2, l2⟩ := cond_at _ h2 a1
    simp only [semCond] at hs
    split at hs
    · rename_i w1 l1' hc
      obtain ⟨vs1, e1, k1⟩ := ihc h1 ha (l2.trans hF) hk hc
      obtain ⟨vs2, e2, k2⟩ := ihd h2 a1 hF k1 hs
      exact ⟨vs2, by rw [check, e1]; simpa using e2, k2⟩
    · rename_i hne
      obtain ⟨vs1, e1, k1⟩ := ihc h1 ha (l2.trans hF) hk hs
      cases b with
      | true => exact absurd hs (hne w' l')
      | false => exact ⟨vs1, by rw [check, e1]; rfl, k1⟩
  | or c d ihc ihd =>
    intro st c st' h p ha F hF l vs hk w w' l' b hs
    simp only [cond, bind, Option.bind_eq_some_iff, pure, Option.some.injEq] at h
    obtain ⟨⟨a', s1⟩, h1, ⟨b', s2⟩, h2, h3⟩ := h
    simp only [Prod.mk.injEq] at h3
    obtain ⟨rfl, rfl⟩ := h3
    obtain ⟨a1, l1⟩ := cond_at _ h1 ha
    obtain ⟨a2, l2⟩ := cond_at _ h2 a1
    simp only [semCond] at hs
    split at hs
    · rename_i w1 l1' hc
      obtain ⟨vs1, e1, k1⟩ := ihc h1 ha (l2.trans hF) hk hc
      obtain ⟨vs2, e2, k2⟩ := ihd h2 a1 hF k1 hs
      exact ⟨vs2, by rw [check, e1]; simpa using e2, k2⟩
    · rename_i hne
      obtain ⟨vs1, e1, k1⟩ := ihc h1 ha (l2.trans hF) hk hs
      cases b with
      | false => exact absurd hs (hne w' l')
      | true => exact ⟨vs1, by rw [check, e1]; rfl, k1⟩

theorem clear_kept {F l vs k B} (hk : Kept F l vs) (hB : k ≠ 0 → ∃ t ts, B = some (t :: ts)) :
    Kept F (ended B l) (clearMatch k vs) := by
  obtain ⟨hlen, hget⟩ := Store.clear_match k vs
  by_cases h0 : k = 0
  · subst h0
    have e : clearMatch 0 vs = vs := by unfold clearMatch; simp
    rw [e]
    unfold ended
    split
    · refine ⟨hk.length, ?_, ?_⟩
      · intro h
        cases l with
        | none => exact hk.none rfl
        | some s => cases h
      · intro s h hf
        cases l with
        | none => cases h
        | some s =>
          simp only [Option.map_some, Option.some.injEq] at h
          subst h
          cases hf
    · exact hk
  · obtain ⟨t, ts, rfl⟩ := hB h0
    unfold ended
    refine ⟨by rw [hlen]; exact hk.length, ?_, ?_⟩
    · intro h i v hv
      cases l with
      | none =>
        have hi : i < vs.length := by
          have := (List.getElem?_eq_some_iff.1 hv).1
          omega
        rw [hget i _ (List.getElem?_eq_getElem hi)] at hv
        injection hv with hv
        split at hv
        · exact hv.symm
        · rw [← hv]; exact hk.none rfl i _ (List.getElem?_eq_getElem hi)
      | some s => cases h
    · intro s h hf
      cases l with
      | none => cases h
      | some s =>
        simp only [Option.map_some, Option.some.injEq] at h
        subst h
        cases hf

theorem close_vars {st p} (ha : At st p) : (close st).1 ≠ 0 → ∃ t ts, p.blocks.head? = some (t :: ts) := by
  unfold close
  cases hs : st.blocks with
  | nil => intro h; exact absurd rfl h
  | cons b bs =>
    intro h
    rw [ha.blocks, hs]
    cases ht : b.tests with
    | nil => exact absurd (ha.tidy b (by rw [hs]; simp) ht) h
    | cons t ts => exact ⟨t, ts, by simp [ht]⟩

theorem stmt_runs : ∀ (fuel : Nat) (s : Stmt W) {st c st'}, stmt s st = some (c, st') → ∀ {p}, At st p → ∀ {F}, Later st' F →
    ∀ {l vs}, Kept F l vs → ∀ {w w' l' e}, sem guarded fuel s p w l = some (w', l', e) →
    ∃ vs', run F.masks fuel c w vs = some (w', vs', e) ∧ Kept F l' vs' := by
  intro fuel
  induction fuel with
  | zero => intro s st c st' h p ha F hF l vs hk w w' l' e hs; cases s <;> simp [sem] at hs
  | succ fuel ih =>
    intro s st c st' h p ha F hF l vs hk w w' l' e hs
    cases s with
    | skip =>
      simp only [stmt, Option.some.injEq, Prod.mk.injEq] at h
      obtain ⟨rfl, rfl⟩ := h
      simp only [sem, Option.some.injEq, Prod.mk.injEq] at hs
      obtain ⟨rfl, rfl, rfl⟩ := hs
      exact ⟨vs, rfl, hk⟩
    | exit again =>
      simp only [stmt, Option.some.injEq, Prod.mk.injEq] at h
      obtain ⟨rfl, rfl⟩ := h
      simp only [sem, Option.some.injEq, Prod.mk.injEq] at hs
      obtain ⟨rfl, rfl, rfl⟩ := hs
      exact ⟨vs, rfl, hk⟩
    | seq a b =>
      simp only [stmt, bind, Option.bind_eq_some_iff, pure, Option.some.injEq] at h
      obtain ⟨⟨a', s1⟩, h1, ⟨b', s2⟩, h2, h3⟩ := h
      simp only [Prod.mk.injEq] at h3
      obtain ⟨rfl, rfl⟩ := h3
      obtain ⟨a1, l1⟩ := stmt_at _ h1 ha
      obtain ⟨a2, l2⟩ := stmt_at _ h2 a1
      simp only [sem] at hs
      split at hs
      · rename_i w1 l1' hc
        obtain ⟨vs1, e1, k1⟩ := ih _ h1 ha (l2.trans hF) hk hc
        obtain ⟨vs2, e2, k2⟩ := ih _ h2 a1 hF k1 hs
        exact ⟨vs2, by rw [run, e1]; exact e2, k2⟩
      · rename_i hne
        obtain ⟨vs1, e1, k1⟩ := ih _ h1 ha (l2.trans hF) hk hs
        refine ⟨vs1, ?_, k1⟩
        rw [run, e1]
        cases e with
        | normal => exact absurd hs (hne w' l')
        | brk => rfl
        | cont => rfl
    | act us f =>
      simp only [stmt, bind, Option.bind_eq_some_iff, pure, Option.some.injEq] at h
      obtain ⟨⟨a', s1⟩, h1, h2⟩ := h
      simp only [Prod.mk.injEq] at h2
      obtain ⟨rfl, rfl⟩ := h2
      simp only [sem, Option.map_eq_some_iff, Prod.mk.injEq] at hs
      obtain ⟨xs, hx, rfl, rfl, rfl⟩ := hs
      exact ⟨vs, by rw [run, vars_value h1 ha hF hk hx], hk⟩
    | delete us f =>
      simp only [stmt, bind, Option.bind_eq_some_iff, pure, Option.some.injEq] at h
      obtain ⟨⟨a', s1⟩, h1, h2⟩ := h
      simp only [Prod.mk.injEq] at h2
      obtain ⟨rfl, rfl⟩ := h2
      simp only [sem, Option.map_eq_some_iff, Prod.mk.injEq] at hs
      obtain ⟨xs, hx, rfl, rfl, rfl⟩ := hs
      obtain ⟨a1, l1⟩ := note_at ha
      obtain ⟨a2, l2⟩ := vars_at h1 a1
      obtain ⟨a3, l3⟩ := emit_at (m := none) a2
      exact ⟨vs, by rw [run, vars_value h1 a1 (l3.trans hF) hk hx], hk⟩
    | ite t a b =>
      simp only [stmt, bind, Option.bind_eq_some_iff, pure, Option.some.injEq] at h
      obtain ⟨⟨t', s0⟩, h0, ⟨a', s1⟩, h1, ⟨b', s2⟩, h2, h3⟩ := h
      simp only [Prod.mk.injEq] at h3
      obtain ⟨rfl, rfl⟩ := h3
      obtain ⟨a0, l0⟩ := cond_at t h0 ha
      obtain ⟨a1, l1⟩ := stmt_at _ h1 a0
      obtain ⟨a2, l2⟩ := stmt_at _ h2 a1
      simp only [sem] at hs
      split at hs
      · rename_i w1 l1' hc
        obtain ⟨vs1, e1, k1⟩ := cond_runs t h0 ha (l1.trans (l2.trans hF)) hk hc
        obtain ⟨vs2, e2, k2⟩ := ih _ h1 a0 (l2.trans hF) k1 hs
        exact ⟨vs2, by rw [run, e1]; simpa using e2, k2⟩
      · rename_i w1 l1' hc
        obtain ⟨vs1, e1, k1⟩ := cond_runs t h0 ha (l1.trans (l2.trans hF)) hk hc
        obtain ⟨vs2, e2, k2⟩ := ih _ h2 a1 hF k1 hs
        exact ⟨vs2, by rw [run, e1]; simpa using e2, k2⟩
      · cases hs
    | block a k =>
      simp only [stmt, bind, Option.bind_eq_some_iff, pure, Option.some.injEq] at h
      obtain ⟨⟨a', s1⟩, h1, h2⟩ := h
      simp only [Prod.mk.injEq] at h2
      obtain ⟨rfl, rfl⟩ := h2
      obtain ⟨a0, l0⟩ := open_at ha
      obtain ⟨a1, l1⟩ := stmt_at _ h1 a0
      obtain ⟨a2, l2⟩ := close_at a1
      simp only [sem] at hs
      split at hs
      · rename_i w1 l1' hc
        obtain ⟨vs1, e1, k1⟩ := ih _ h1 a0 (l2.trans hF) hk hc
        simp only [Option.some.injEq, Prod.mk.injEq] at hs
        obtain ⟨rfl, rfl, rfl⟩ := hs
        exact ⟨_, by rw [run, e1], clear_kept k1 (close_vars a1)⟩
      · rename_i hne
        obtain ⟨vs1, e1, k1⟩ := ih _ h1 a0 (l2.trans hF) hk hs
        refine ⟨vs1, ?_, k1⟩
        rw [run, e1]
        cases e with
        | normal => exact absurd hs (hne w' l')
        | brk => rfl
        | cont => rfl
    | loop us g a =>
      have h' := h
      simp only [stmt, bind, Option.bind_eq_some_iff, pure, Option.some.injEq] at h
      obtain ⟨⟨us', s0⟩, h0, ⟨a', s1⟩, h1, h3⟩ := h
      simp only [Prod.mk.injEq] at h3
      obtain ⟨rfl, rfl⟩ := h3
      obtain ⟨a0, l0⟩ := vars_at h0 ha
      obtain ⟨a1, l1⟩ := stmt_at _ h1 a0
      simp only [sem] at hs
      split at hs
      · cases hs
      · rename_i xs hx
        have ex := vars_value h0 ha (l1.trans hF) hk hx
        split at hs
        · rename_i w1 hg
          simp only [Option.some.injEq, Prod.mk.injEq] at hs
          obtain ⟨rfl, rfl, rfl⟩ := hs
          exact ⟨vs, by rw [run, ex, hg]; rfl, hk⟩
        · rename_i w1 hg
          split at hs
          · rename_i w2 l2 hc
            obtain ⟨vs1, e1, k1⟩ := ih _ h1 a0 hF hk hc
            simp only [Option.some.injEq, Prod.mk.injEq] at hs
            obtain ⟨rfl, rfl, rfl⟩ := hs
            exact ⟨vs1, by rw [run, ex, hg]; simp [e1], k1⟩
          · rename_i w2 l2 e2 hne hc
            obtain ⟨vs1, e1, k1⟩ := ih _ h1 a0 hF hk hc
            obtain ⟨vs2, e3, k2⟩ := ih _ h' ha hF k1 hs
            refine ⟨vs2, ?_, k2⟩
            rw [run, ex, hg]
            simp only [if_true, e1]
            cases e2 with
            | brk => exact absurd rfl hne
            | normal => exact e3
            | cont => exact e3
          · cases hs

end Sieve.MatchVar
