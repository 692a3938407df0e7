import Verif.Prelude
import Verif.AddressModel
/-
C31: envelope addresses.
-/
namespace Sieve.Address

/-- A byte that may occur in an accepted address: ASCII, no white space, no `<`, `>`, `:`. -/
def OkByte (b : UInt8) : Prop := b < 128 ∧ byteSpace b = false ∧ b ≠ 60 ∧ b ≠ 62 ∧ b ≠ 58

/-- Loop invariant at position `pos` of `addr`. -/
structure Env.Inv (addr : List UInt8) (pos : Nat) (s : Env) : Prop where
  start : s.start ≤ pos
  stop : s.stop = addr.length ∨ (pos = addr.length ∧ s.stop + 1 = addr.length)
  ok : ∀ (i : Nat) (b : UInt8), s.start ≤ i → i < pos → i < s.stop → addr[i]? = some b → OkByte b
  comma : s.inPath = false → ∀ (i : Nat) (b : UInt8), s.start ≤ i → i < pos → addr[i]? = some b → b ≠ 44
  at_ : s.inPath = false →
    (s.at_ = 0 ∧ ∀ (i : Nat), s.start ≤ i → i < pos → addr[i]? ≠ some 64) ∨
    (s.at_ ≠ 0 ∧ s.start ≤ s.at_ ∧ s.at_ < pos ∧ addr[s.at_]? = some 64 ∧
      ∀ (i : Nat), s.start ≤ i → i < pos → addr[i]? = some 64 → i = s.at_)

theorem Env.step_inv (addr : List UInt8) (pos : Nat) (s s' : Env) (ch : UInt8)
    (h0 : addr[0]? ≠ some 64) (hch : addr[pos]? = some ch) (hs : s.Inv addr pos)
    (he : s.step addr.length pos ch = .go s') : s'.Inv addr (pos + 1) := by
  have hpos := (List.getElem?_eq_some_iff.mp hch).1
  have hstop : s.stop = addr.length := by
    rcases hs.stop with h | h
    · exact h
    · omega
  have hlast : ∀ i, i < pos + 1 → ¬ i < pos → i = pos := fun i h1 h2 => by omega
  -- a step that only changes `lastCh`
  have quiet : ∀ (hok : OkByte ch) (hc : ch ≠ 44) (ha : ch ≠ 64),
      ({ s with lastCh := ch } : Env).Inv addr (pos + 1) := by
    intro hok hc ha
    refine ⟨by have := hs.start; simp only; omega, Or.inl hstop, ?_, ?_, ?_⟩
    · intro i b h1 h2 h3 h4
      by_cases hi : i < pos
      · exact hs.ok i b h1 hi h3 h4
      · have := hlast i h2 hi; subst this
        rw [hch] at h4; cases h4; exact hok
    · intro hp i b h1 h2 h4
      by_cases hi : i < pos
      · exact hs.comma hp i b h1 hi h4
      · have := hlast i h2 hi; subst this
        rw [hch] at h4; cases h4; exact hc
    · intro hp
      rcases hs.at_ hp with ⟨p1, p2⟩ | ⟨p1, p2, p3, p4, p5⟩
      · refine Or.inl ⟨p1, fun i h1 h2 h4 => ?_⟩
        by_cases hi : i < pos
        · exact p2 i h1 hi h4
        · have := hlast i h2 hi; subst this
          rw [hch] at h4; exact ha (Option.some.inj h4)
      · refine Or.inr ⟨p1, p2, by simp only; omega, p4, fun i h1 h2 h4 => ?_⟩
        by_cases hi : i < pos
        · exact p5 i h1 hi h4
        · have := hlast i h2 hi; subst this
          rw [hch] at h4; exact absurd (Option.some.inj h4) ha
  unfold Env.step at he
  split at he
  · split at he
    · rename_i hp0
      cases he
      subst hp0
      refine ⟨by simp, Or.inl hstop, ?_, ?_, ?_⟩
      · intro i b h1 h2; simp only at h1; omega
      · intro _ i b h1 h2; simp only at h1; omega
      · intro hp
        left
        refine ⟨?_, fun i h1 h2 => by simp only at h1; omega⟩
        rcases hs.at_ hp with ⟨p1, _⟩ | ⟨_, _, p3, _⟩
        · exact p1
        · omega
    · cases he
  split at he
  · split at he
    · rename_i hcond
      split at he
      · cases he
        have hpl : pos + 1 = addr.length := by omega
        refine ⟨by have := hs.start; simp only; omega, Or.inr ⟨hpl, by simp only; omega⟩, ?_, ?_, ?_⟩
        · intro i b h1 h2 h3 h4
          simp only at h3
          exact hs.ok i b h1 h3 (by omega) h4
        · intro hp i b h1 h2 h4
          by_cases hi : i < pos
          · exact hs.comma hp i b h1 hi h4
          · have := hlast i h2 hi; subst this
            rw [hch] at h4; cases h4
            rename_i _ h62 _ ; subst h62; decide
        · intro hp
          rename_i _ h62 _
          rcases hs.at_ hp with ⟨p1, p2⟩ | ⟨p1, p2, p3, p4, p5⟩
          · refine Or.inl ⟨p1, fun i h1 h2 h4 => ?_⟩
            by_cases hi : i < pos
            · exact p2 i h1 hi h4
            · have := hlast i h2 hi; subst this
              rw [hch] at h4; rw [h62] at h4; exact absurd h4 (by decide)
          · refine Or.inr ⟨p1, p2, by simp only; omega, p4, fun i h1 h2 h4 => ?_⟩
            by_cases hi : i < pos
            · exact p5 i h1 hi h4
            · have := hlast i h2 hi; subst this
              rw [hch] at h4; rw [h62] at h4; exact absurd h4 (by decide)
      · cases he
    · cases he
  split at he
  · split at he
    · cases he
      refine ⟨by simp, Or.inl hstop, ?_, ?_, ?_⟩
      · intro i b h1 h2; simp only at h1; omega
      · intro _ i b h1 h2; simp only at h1; omega
      · intro hp
        left
        exact ⟨rfl, fun i h1 h2 => by simp only at h1; omega⟩
    · cases he
  split at he
  · rename_i h44
    split at he
    · cases he
      refine ⟨by have := hs.start; simp only; omega, Or.inl hstop, ?_, ?_, ?_⟩
      · intro i b h1 h2 h3 h4
        by_cases hi : i < pos
        · exact hs.ok i b h1 hi h3 h4
        · have := hlast i h2 hi; subst this
          rw [hch] at h4; cases h4
          subst h44
          refine ⟨?_, ?_, ?_, ?_, ?_⟩ <;> decide
      · intro hp; cases hp
      · intro hp; cases hp
    · cases he
  split at he
  · rename_i h64
    split at he
    · rename_i hcond
      cases he
      have hp0 : pos ≠ 0 := by
        rintro rfl
        rw [hch, h64] at h0; exact h0 rfl
      refine ⟨by have := hs.start; simp only; omega, Or.inl hstop, ?_, ?_, ?_⟩
      · intro i b h1 h2 h3 h4
        by_cases hi : i < pos
        · exact hs.ok i b h1 hi h3 h4
        · have := hlast i h2 hi; subst this
          rw [hch] at h4; cases h4
          subst h64
          refine ⟨?_, ?_, ?_, ?_, ?_⟩ <;> decide
      · intro hp i b h1 h2 h4
        by_cases hi : i < pos
        · exact hs.comma hp i b h1 hi h4
        · have := hlast i h2 hi; subst this
          rw [hch] at h4; cases h4; subst h64; decide
      · intro hp
        right
        refine ⟨hp0, hs.start, by simp, by rw [hch, h64], fun i h1 h2 h4 => ?_⟩
        by_cases hi : i < pos
        · rcases hs.at_ hp with ⟨p1, p2⟩ | ⟨p1, _⟩
          · exact absurd h4 (p2 i h1 hi)
          · exact absurd hcond.1 p1
        · exact hlast i h2 hi
    · cases he
  split at he
  · rename_i h46
    split at he
    · cases he
    · cases he
      refine quiet ?_ ?_ ?_ <;> subst h46
      · refine ⟨?_, ?_, ?_, ?_, ?_⟩ <;> decide
      · decide
      · decide
  split at he
  · cases he
  · rename_i h60 h62 h58 h44 h64 _ hcond
    cases he
    refine quiet ⟨?_, ?_, h60, h62, h58⟩ h44 h64
    · by_contra h; exact hcond (Or.inr h)
    · cases hb : byteSpace ch with
      | false => rfl
      | true => exact absurd (Or.inl hb) hcond

/-- Either the loop runs through with the invariant, or it returns early: nothing, or the empty
address for `<>`. -/
theorem Env.run_inv (addr : List UInt8) (h0 : addr[0]? ≠ some 64) (rest : List UInt8) (pos : Nat)
    (s : Env) (hrest : addr.drop pos = rest) (hpos : pos ≤ addr.length) (hs : s.Inv addr pos) :
    (∀ s', Env.run addr.length pos s rest = .go s' → s'.Inv addr addr.length) ∧
    (∀ r, Env.run addr.length pos s rest = .ret (some r) → r = [] ∧ addr.length ≤ 2) := by
  induction rest generalizing pos s with
  | nil =>
    have : pos = addr.length := by
      have := congrArg List.length hrest
      simp at this; omega
    subst this
    refine ⟨fun s' he => ?_, fun r he => ?_⟩
    · simp only [Env.run] at he; cases he; exact hs
    · simp only [Env.run] at he; cases he
  | cons c cs ih =>
    have hc : addr[pos]? = some c := by
      have := congrArg (·[0]?) hrest
      simpa using this
    have hlt := (List.getElem?_eq_some_iff.mp hc).1
    simp only [Env.run]
    cases hst : s.step addr.length pos c with
    | go s1 =>
      exact ih (pos + 1) s1 (by rw [← List.drop_drop, hrest]; rfl) (by omega)
        (Env.step_inv addr pos s s1 c h0 hc hs hst)
    | ret r1 =>
      refine ⟨fun s' he => (by cases he), fun r he => ?_⟩
      cases he
      unfold Env.step at hst
      split at hst
      · split at hst <;> cases hst
      split at hst
      · split at hst
        · split at hst
          · cases hst
          · cases hst
            exact ⟨rfl, by omega⟩
        · cases hst
      split at hst
      · split at hst <;> cases hst
      split at hst
      · split at hst <;> cases hst
      split at hst
      · split at hst <;> cases hst
      split at hst
      · split at hst <;> cases hst
      split at hst
      · cases hst
      · cases hst

theorem getElem?_piece (addr : List UInt8) (start stop i : Nat) :
    ((addr.take stop).drop start)[i]? = if start + i < stop then addr[start + i]? else none := by
  rw [List.getElem?_drop, List.getElem?_take]

/-- What an accepted address looks like. -/
def WellFormed (addr r : List UInt8) : Prop :=
  r <:+: addr ∧ (∀ b ∈ r, OkByte b ∧ b ≠ 44) ∧
    ∃ local_ domain, r = local_ ++ 64 :: domain ∧ local_ ≠ [] ∧ domain ≠ [] ∧
      64 ∉ local_ ∧ 64 ∉ domain

/-- **C31** (all inputs not starting with `@`): an accepted envelope address is empty (only for an
empty text or `<>`), or mailer-daemon, or a piece of the input with exactly one `@`, something on
both sides of it, and no white space, angle bracket, colon, comma or non-ASCII byte. -/
theorem envelope_partial (addr r : List UInt8) (h0 : addr.head? ≠ some 64)
    (h : parseEnvelope addr = some r) :
    (r = [] ∧ addr.length ≤ 2) ∨ (r.map byteLower = mailerDaemon ∧ r <:+: addr) ∨
      WellFormed addr r := by
  rw [List.head?_eq_getElem?] at h0
  unfold parseEnvelope at h
  split at h
  · rename_i he
    cases h; left; exact ⟨rfl, by rw [he]; simp⟩
  have hrun := Env.run_inv addr h0 addr 0 { stop := addr.length } rfl (by omega)
    ⟨by simp, Or.inl rfl, fun i b _ h2 => by omega, fun _ i b _ h2 => by omega,
      fun _ => Or.inl ⟨rfl, fun i _ h2 => by omega⟩⟩
  split at h
  · rename_i s hgo
    have hs := hrun.1 s hgo
    have hinf : (addr.take s.stop).drop s.start <:+: addr :=
      ((List.drop_suffix _ _).isInfix).trans (List.take_prefix _ _).isInfix
    unfold Env.finish at h
    simp only at h
    split at h
    · rename_i hc
      obtain ⟨_, hpath, h1, h2⟩ := hc
      cases h
      right; right
      have hstop : s.stop ≤ addr.length := by
        rcases hs.stop with h | h <;> omega
      rcases hs.at_ hpath with ⟨p1, _⟩ | ⟨p1, p2, p3, p4, p5⟩
      · omega
      refine ⟨hinf, ?_, ?_⟩
      · intro b hb
        obtain ⟨i, hi⟩ := List.mem_iff_getElem?.mp hb
        rw [getElem?_piece] at hi
        split at hi
        · rename_i hlt
          exact ⟨hs.ok _ b (by omega) (by omega) hlt hi, hs.comma hpath _ b (by omega) (by omega) hi⟩
        · cases hi
      · set p := (addr.take s.stop).drop s.start with hp
        have hk : p[s.at_ - s.start]? = some 64 := by
          rw [hp, getElem?_piece, if_pos (by omega), show s.start + (s.at_ - s.start) = s.at_ by omega]
          exact p4
        obtain ⟨hkl, hke⟩ := List.getElem?_eq_some_iff.mp hk
        have hplen : p.length = s.stop - s.start := by rw [hp]; simp; omega
        have huniq : ∀ i, p[i]? = some 64 → i = s.at_ - s.start := by
          intro i hi
          rw [hp, getElem?_piece] at hi
          split at hi
          · have := p5 (s.start + i) (by omega) (by omega) hi
            omega
          · cases hi
        refine ⟨p.take (s.at_ - s.start), p.drop (s.at_ - s.start + 1), ?_, ?_, ?_, ?_, ?_⟩
        · conv_lhs => rw [← List.take_append_drop (s.at_ - s.start) p]
          rw [List.drop_eq_getElem_cons hkl, hke]
        · intro he
          have := congrArg List.length he
          simp only [List.length_take, List.length_nil] at this; omega
        · intro he
          have := congrArg List.length he
          simp only [List.length_drop, List.length_nil] at this; omega
        · intro hm
          obtain ⟨i, hi⟩ := List.mem_iff_getElem?.mp hm
          rw [List.getElem?_take] at hi
          split at hi
          · have := huniq i hi; omega
          · cases hi
        · intro hm
          obtain ⟨i, hi⟩ := List.mem_iff_getElem?.mp hm
          rw [List.getElem?_drop] at hi
          have := huniq _ hi; omega
    · split at h
      · rename_i hc
        cases h
        exact Or.inr (Or.inl ⟨hc.2, hinf⟩)
      · cases h
  · rename_i r' hret
    cases h
    exact Or.inl (hrun.2 _ hret)

/-- **C31** is false for texts starting with `@`: "@@a" is accepted although it has two `@` and
nothing before the first one. -/
theorem envelope_leading_at : parseEnvelope [64, 64, 97] = some [64, 64, 97] := by decide

-- "<a@b>" and "<@x,@y:a@b>"
example : parseEnvelope [60, 97, 64, 98, 62] = some [97, 64, 98] := by decide
example : parseEnvelope [60, 64, 120, 44, 64, 121, 58, 97, 64, 98, 62] = some [97, 64, 98] := by
  decide

/-! ### Brackets and source routes -/

/-- The result computed from the state after some prefix. -/
def Env.complete (addr : List UInt8) (pos : Nat) (s : Env) (rest : List UInt8) :
    Option (List UInt8) :=
  match Env.run addr.length pos s rest with
  | .go s => s.finish addr
  | .ret r => r

/-- The two runs are in step: `sA` scans `a` alone, `sB` scans it at offset `p`. -/
structure Env.Shift (p i n m : Nat) (br : Bool) (sA sB : Env) : Prop where
  start : sB.start = sA.start + p
  at_ : sB.at_ = if sA.at_ = 0 then 0 else sA.at_ + p
  last : (sA.lastCh = sB.lastCh) ∨ (i = 0 ∧ sA.lastCh = 0 ∧ sB.lastCh ≠ 46 ∧ sB.lastCh ≠ 64)
  path : sB.inPath = sA.inPath
  brA : sA.hasBracket = false
  brB : sB.hasBracket = br
  stopA : sA.stop = n
  stopB : sB.stop = m
  startA : sA.start ≤ i
  atA : sA.at_ < n

theorem Env.shift_go (pre a : List UInt8) (br : Bool) (hp : 0 < pre.length)
    (h0 : a.head? ≠ some 64) (h1 : a.head? ≠ some 60) (rest : List UInt8) (i : Nat) (sA sB : Env)
    (hrest : a.drop i = rest) (hi : i ≤ a.length)
    (hs : Env.Shift pre.length i a.length (pre ++ a ++ if br then [62] else []).length br sA sB)
    (ha : a ≠ []) :
    Env.complete (pre ++ a ++ if br then [62] else []) (pre.length + i) sB
        (rest ++ if br then [62] else []) = Env.complete a i sA rest := by
  set full := pre ++ a ++ if br then [62] else [] with hfull
  have hlen : full.length = pre.length + a.length + if br then 1 else 0 := by
    rw [hfull]; cases br <;> simp; omega
  have hn : 0 < a.length := List.length_pos_iff.mpr ha
  induction rest generalizing i sA sB with
  | nil =>
    have hieq : i = a.length := by
      have := congrArg List.length hrest
      simp at this; omega
    obtain ⟨e1, e2, _, e4, e5, e6, e7, e8, e9, e10⟩ := hs
    have piece : ∀ k, k = pre.length + a.length → (full.take k).drop (sA.start + pre.length) =
        (a.take a.length).drop sA.start := by
      intro k hk
      rw [hfull, List.append_assoc, List.take_append, List.take_of_length_le (by omega),
        List.drop_append, List.drop_eq_nil_of_le (by omega), List.nil_append, hk,
        show pre.length + a.length - pre.length = a.length by omega,
        show sA.start + pre.length - pre.length = sA.start by omega, List.take_append_of_le_length (le_refl _)]
    cases br with
    | false =>
      simp only [Bool.false_eq_true, if_false, List.append_nil, Env.complete, Env.run]
      simp only [Bool.false_eq_true, if_false] at hlen
      unfold Env.finish
      simp only [e1, e4, e5, e6, e7, e8]
      rw [piece _ (by omega)]
      have c1 : (sA.start + pre.length < sB.at_ ∧ sB.at_ < full.length - 1) ↔
          (sA.start < sA.at_ ∧ sA.at_ < a.length - 1) := by
        rw [e2]; split <;> omega
      have c2 : sB.at_ = 0 ↔ sA.at_ = 0 := by rw [e2]; split <;> omega
      simp only [c1, c2, true_and]
    | true =>
      simp only [if_true, List.nil_append, Env.complete, Env.run]
      simp only [if_true] at hlen
      have hst : sB.step full.length (pre.length + i) 62 =
          .go { sB with hasBracket := false, stop := pre.length + i, lastCh := 62 } := by
        unfold Env.step
        rw [if_neg (by decide), if_pos rfl, if_pos ⟨e6, by omega⟩, if_pos (by omega)]
      rw [hst]
      simp only
      unfold Env.finish
      simp only [e1, e4, e5, e7]
      rw [piece _ (by omega)]
      have c1 : (sA.start + pre.length < sB.at_ ∧ sB.at_ < pre.length + i - 1) ↔
          (sA.start < sA.at_ ∧ sA.at_ < a.length - 1) := by
        rw [e2]; split <;> omega
      have c2 : sB.at_ = 0 ↔ sA.at_ = 0 := by rw [e2]; split <;> omega
      simp only [c1, c2, true_and]
  | cons c cs ih =>
    have hc : a[i]? = some c := by
      have := congrArg (·[0]?) hrest
      simpa using this
    have hlt := (List.getElem?_eq_some_iff.mp hc).1
    have hdrop : a.drop (i + 1) = cs := by rw [← List.drop_drop, hrest]; rfl
    have hfl : pre.length + i < full.length := by omega
    have key : (∃ r, sB.step full.length (pre.length + i) c = .ret r ∧
          sA.step a.length i c = .ret r) ∨
        (∃ sB' sA', sB.step full.length (pre.length + i) c = .go sB' ∧
          sA.step a.length i c = .go sA' ∧
          Env.Shift pre.length (i + 1) a.length full.length br sA' sB') ∨
        (c = 64 ∧ br = true ∧ cs = [] ∧ sA.at_ = 0 ∧ sA.step a.length i c = .ret none ∧
          sB.step full.length (pre.length + i) c =
            .go { sB with at_ := pre.length + i, lastCh := c }) := by
      obtain ⟨e1, e2, e3, e4, e5, e6, e7, e8, e9, e10⟩ := hs
      have hb0 : sB.at_ ≠ 0 ↔ sA.at_ ≠ 0 := by rw [e2]; split <;> omega
      have hne0 : c = 64 → i ≠ 0 := by
        rintro rfl rfl; exact h0 (by rw [List.head?_eq_getElem?]; exact hc)
      have quiet : Env.Shift pre.length (i + 1) a.length full.length br
          { sA with lastCh := c } { sB with lastCh := c } :=
        ⟨e1, e2, Or.inl rfl, e4, e5, e6, e7, e8, by simp only; omega, e10⟩
      unfold Env.step
      by_cases k60 : c = 60
      · subst k60
        have hi0 : i ≠ 0 := by
          rintro rfl; exact h1 (by rw [List.head?_eq_getElem?]; exact hc)
        left; exact ⟨none, by
          rw [if_pos rfl, if_neg (by omega)], by rw [if_pos rfl, if_neg hi0]⟩
      simp only [if_neg k60]
      by_cases k62 : c = 62
      · left
        simp only [if_pos k62]
        refine ⟨none, ?_, ?_⟩
        · rw [if_neg]
          rintro ⟨p1, p2⟩
          rw [e6] at p1
          subst p1
          simp only [if_true] at hlen
          omega
        · rw [if_neg (by rw [e5]; simp)]
      simp only [if_neg k62]
      by_cases k58 : c = 58
      · simp only [if_pos k58]
        by_cases hat : sA.at_ ≠ 0
        · right; left
          rw [if_pos (hb0.mpr hat), if_pos hat]
          exact ⟨_, _, rfl, rfl, by simp only; omega, by simp, Or.inl rfl, rfl, e5, e6, e7, e8, by simp,
            by simpa using hn⟩
        · left
          rw [if_neg (fun h => hat (hb0.mp h)), if_neg hat]
          exact ⟨none, rfl, rfl⟩
      simp only [if_neg k58]
      by_cases k44 : c = 44
      · simp only [if_pos k44]
        by_cases hat : sA.at_ ≠ 0
        · right; left
          rw [if_pos (hb0.mpr hat), if_pos hat]
          exact ⟨_, _, rfl, rfl, e1, by simp, Or.inl rfl, rfl, e5, e6, e7, e8,
            by simp only; omega, by simpa using hn⟩
        · left
          rw [if_neg (fun h => hat (hb0.mp h)), if_neg hat]
          exact ⟨none, rfl, rfl⟩
      simp only [if_neg k44]
      by_cases k64 : c = 64
      · have hi0 := hne0 k64
        simp only [if_pos k64]
        by_cases hat : sA.at_ = 0
        · have hatB : sB.at_ = 0 := by by_contra h; exact (hb0.mp h) hat
          by_cases hend : i = a.length - 1
          · rw [if_neg (fun h : sA.at_ = 0 ∧ i ≠ a.length - 1 => h.2 hend)]
            have hcs : cs = [] := by
              rw [← hdrop]; exact List.drop_eq_nil_of_le (by omega)
            cases hbr : br with
            | false =>
              left
              rw [hbr] at hlen
              simp only [Bool.false_eq_true, if_false] at hlen
              rw [if_neg (fun h : sB.at_ = 0 ∧ pre.length + i ≠ full.length - 1 => h.2 (by omega))]
              exact ⟨none, rfl, rfl⟩
            | true =>
              right; right
              rw [hbr] at hlen
              simp only [if_true] at hlen
              rw [if_pos ⟨hatB, by omega⟩]
              exact ⟨k64, rfl, hcs, hat, rfl, rfl⟩
          · right; left
            rw [if_pos ⟨hatB, by omega⟩, if_pos ⟨hat, hend⟩]
            refine ⟨_, _, rfl, rfl, e1, ?_, Or.inl rfl, e4, e5, e6, e7, e8, by simp only; omega,
              by simp only; omega⟩
            simp only [if_neg hi0]; omega
        · left
          rw [if_neg (fun h => (hb0.mpr hat) h.1), if_neg (fun h => hat h.1)]
          exact ⟨none, rfl, rfl⟩
      simp only [if_neg k64]
      by_cases k46 : c = 46
      · simp only [if_pos k46]
        have hcond : ((sB.at_ ≠ 0 ∧ sB.lastCh = 46) ∨ sB.lastCh = 64) ↔
            ((sA.at_ ≠ 0 ∧ sA.lastCh = 46) ∨ sA.lastCh = 64) := by
          rcases e3 with h | ⟨_, h1, h2, h3⟩
          · rw [h, hb0]
          · rw [h1]
            simp [h2, h3]
        by_cases hc' : (sA.at_ ≠ 0 ∧ sA.lastCh = 46) ∨ sA.lastCh = 64
        · left
          rw [if_pos (hcond.mpr hc'), if_pos hc']
          exact ⟨none, rfl, rfl⟩
        · right; left
          rw [if_neg (fun h => hc' (hcond.mp h)), if_neg hc']
          exact ⟨_, _, rfl, rfl, quiet⟩
      simp only [if_neg k46]
      by_cases hsp : byteSpace c = true ∨ ¬ c < 128
      · left
        rw [if_pos hsp, if_pos hsp]
        exact ⟨none, rfl, rfl⟩
      · right; left
        rw [if_neg hsp, if_neg hsp]
        exact ⟨_, _, rfl, rfl, quiet⟩
    rcases key with ⟨r, k1, k2⟩ | ⟨sB', sA', k1, k2, k3⟩ | ⟨_, hbr, hcs, hat, k2, k1⟩
    · simp only [Env.complete, List.cons_append, Env.run, k1, k2]
    · have := ih (i + 1) sA' sB' hdrop (by omega) k3
      simp only [Env.complete, List.cons_append, Env.run, k1, k2] at this ⊢
      exact this
    · subst hcs
      subst hbr
      simp only [if_true] at hlen
      have hil : i + 1 = a.length := by
        have := congrArg List.length hdrop
        simp at this; omega
      have hst : ({ sB with at_ := pre.length + i, lastCh := c } : Env).step full.length
          (pre.length + i + 1) 62 = .go
            ⟨sB.start, pre.length + i + 1, 62, pre.length + i, false, sB.inPath⟩ := by
        unfold Env.step
        rw [if_neg (by decide), if_pos rfl, if_pos ⟨hs.brB, by omega⟩, if_pos (by omega)]
      simp only [Env.complete, if_true, List.cons_append, List.nil_append, Env.run, k1, k2, hst]
      unfold Env.finish
      simp only
      rw [if_neg (by omega), if_neg (by omega)]

theorem complete_eq (a : List UInt8) (ha : a ≠ []) :
    parseEnvelope a = Env.complete a 0 { stop := a.length } a := by
  unfold parseEnvelope Env.complete
  rw [if_neg ha]
  cases Env.run a.length 0 { stop := a.length } a <;> rfl

/-- Running over a prefix. -/
theorem Env.run_append (len pos : Nat) (s s' : Env) (u v : List UInt8)
    (h : Env.run len pos s u = .go s') :
    Env.run len pos s (u ++ v) = Env.run len (pos + u.length) s' v := by
  induction u generalizing pos s with
  | nil => simp only [Env.run] at h; cases h; rfl
  | cons c cs ih =>
    simp only [List.cons_append, Env.run] at h ⊢
    cases hst : s.step len pos c with
    | go s1 =>
      rw [hst] at h
      simp only at h ⊢
      rw [ih (pos + 1) s1 h]
      congr 1
      simp; omega
    | ret r => rw [hst] at h; cases h

/-- **C31** (brackets): `<a>` and `a` give the same result (for texts not starting with `@` or
`<`). -/
theorem envelope_brackets_partial (a : List UInt8) (h0 : a.head? ≠ some 64) (h1 : a.head? ≠ some 60) :
    parseEnvelope ([60] ++ a ++ [62]) = parseEnvelope a := by
  by_cases ha : a = []
  · subst ha; decide
  have := Env.shift_go [60] a true (by simp) h0 h1 a 0 { stop := a.length }
    { start := 1, stop := ([60] ++ a ++ [62]).length, lastCh := 60, hasBracket := true } rfl (by omega)
    ⟨rfl, rfl, Or.inr ⟨rfl, rfl, (by decide : (60 : UInt8) ≠ 46), (by decide : (60 : UInt8) ≠ 64)⟩, rfl, rfl, rfl, rfl, rfl, by simp,
      by simpa using List.length_pos_iff.mpr ha⟩ ha
  rw [complete_eq a ha, ← this, complete_eq _ (by simp)]
  rfl

/-- A host name in a source route: no special byte, no leading or double dot. -/
def HostOk (h : List UInt8) : Prop :=
  h ≠ [] ∧ h.head? ≠ some 46 ∧ (∀ b ∈ h, OkByte b ∧ b ≠ 44 ∧ b ≠ 64) ∧
    ∀ u v, h ≠ u ++ [46, 46] ++ v

/-- A source route "@h1,@h2,…". -/
def route : List (List UInt8) → List UInt8
  | [] => []
  | [h] => 64 :: h
  | h :: hs => 64 :: h ++ 44 :: route hs

theorem Env.run_host (len pos : Nat) (s : Env) (h : List UInt8)
    (hb : ∀ b ∈ h, OkByte b ∧ b ≠ 44 ∧ b ≠ 64) (hd : ∀ u v, h ≠ u ++ [46, 46] ++ v)
    (hl : s.lastCh = 46 ∨ s.lastCh = 64 → h.head? ≠ some 46) :
    ∃ l, Env.run len pos s h = .go { s with lastCh := l } := by
  induction h generalizing pos s with
  | nil => exact ⟨s.lastCh, rfl⟩
  | cons c cs ih =>
    obtain ⟨⟨o1, o2, o3, o4, o5⟩, o6, o7⟩ := hb c (by simp)
    have hst : s.step len pos c = .go { s with lastCh := c } := by
      unfold Env.step
      rw [if_neg o3, if_neg o4, if_neg o5, if_neg o6, if_neg o7]
      by_cases k46 : c = 46
      · rw [if_pos k46, if_neg]
        rintro (⟨_, h⟩ | h)
        · exact hl (Or.inl h) (by simp [k46])
        · exact hl (Or.inr h) (by simp [k46])
      · rw [if_neg k46, if_neg]
        rintro (h | h)
        · rw [o2] at h; cases h
        · exact h o1
    simp only [Env.run, hst]
    obtain ⟨l, hl'⟩ := ih (pos + 1) { s with lastCh := c } (fun b hb' => hb b (by simp [hb']))
      (fun u v he => hd (c :: u) v (by rw [he]; rfl)) (by
        rintro (h | h)
        · simp only at h
          intro hh
          cases cs with
          | nil => cases hh
          | cons d ds =>
            simp only [List.head?_cons, Option.some.injEq] at hh
            exact hd [] ds (by rw [h, hh]; rfl)
        · exact absurd h o7)
    exact ⟨l, hl'⟩

theorem Env.run_route (len : Nat) (hs : List (List UInt8)) (hne : hs ≠ [])
    (hok : ∀ h ∈ hs, HostOk h) (pos : Nat) (hpos : 0 < pos) (s : Env) (hat : s.at_ = 0)
    (hlen : pos + (route hs).length < len) :
    ∃ l a p, a ≠ 0 ∧ Env.run len pos s (route hs) = .go { s with lastCh := l, at_ := a, inPath := p } := by
  induction hs generalizing pos s with
  | nil => exact absurd rfl hne
  | cons h rest ih =>
    obtain ⟨_, hhd, hb, hd⟩ := hok h (by simp)
    have hat' : pos ≠ len - 1 := by
      have : 0 < (route (h :: rest)).length := by
        cases rest <;> simp [route]
      omega
    have hst : s.step len pos 64 = .go { s with at_ := pos, lastCh := 64 } := by
      unfold Env.step
      rw [if_neg (by decide), if_neg (by decide), if_neg (by decide), if_neg (by decide), if_pos rfl,
        if_pos ⟨hat, hat'⟩]
    obtain ⟨l, hl⟩ := Env.run_host len (pos + 1) { s with at_ := pos, lastCh := 64 } h hb hd
      (fun _ => hhd)
    cases rest with
    | nil =>
      refine ⟨l, pos, s.inPath, by omega, ?_⟩
      simp only [route, Env.run, hst, hl]
    | cons h2 rest =>
      have hst2 : ({ s with at_ := pos, lastCh := l } : Env).step len (pos + 1 + h.length) 44 =
          .go { s with at_ := 0, lastCh := 44, inPath := true } := by
        unfold Env.step
        rw [if_neg (by decide), if_neg (by decide), if_neg (by decide), if_pos rfl,
          if_pos (by simp only; omega)]
      obtain ⟨l', a', p', ha', hr'⟩ := ih (by simp) (fun x hx => hok x (by simp [hx]))
        (pos + 1 + h.length + 1) (by omega) { s with at_ := 0, lastCh := 44, inPath := true } rfl
        (by simp only [route, List.length_append, List.length_cons] at hlen ⊢; omega)
      refine ⟨l', a', p', ha', ?_⟩
      show Env.run len pos s (64 :: (h ++ 44 :: route (h2 :: rest))) = _
      simp only [Env.run, hst]
      rw [Env.run_append _ _ _ _ _ _ hl]
      simp only [Env.run, hst2, hr']

/-- **C31** (source routes): `<@h1,@h2,…:a>` gives the same result as `a`. -/
theorem envelope_source_route (hs : List (List UInt8)) (hne : hs ≠ []) (hok : ∀ h ∈ hs, HostOk h)
    (a : List UInt8) (ha : a ≠ []) (h0 : a.head? ≠ some 64) (h1 : a.head? ≠ some 60) :
    parseEnvelope ([60] ++ route hs ++ [58] ++ a ++ [62]) = parseEnvelope a := by
  set pre := [60] ++ route hs ++ [58] with hpre
  set len := (pre ++ a ++ [62]).length with hlen
  have hl1 : len = (route hs).length + a.length + 3 := by simp [hlen, hpre]; omega
  have hpl : pre.length = (route hs).length + 2 := by simp [hpre]
  obtain ⟨l, at', p, hat, hr⟩ := Env.run_route len hs hne hok 1 (by omega)
    { start := 1, stop := len, lastCh := 60, hasBracket := true } rfl (by omega)
  have h60 : ({ stop := len } : Env).step len 0 60 =
      .go { start := 1, stop := len, lastCh := 60, hasBracket := true } := rfl
  have hrun : Env.run len 0 { stop := len } pre =
      .go { start := pre.length, stop := len, lastCh := 58, hasBracket := true } := by
    have : Env.run len 0 { stop := len } ([60] ++ route hs) = .go
        { start := 1, stop := len, lastCh := l, hasBracket := true, at_ := at', inPath := p } := by
      show Env.run len 0 _ (60 :: route hs) = _
      simp only [Env.run, h60, hr]
    rw [hpre, Env.run_append _ _ _ _ _ _ this]
    simp only [Env.run, Env.step]
    rw [if_neg (by decide), if_neg (by decide), if_pos trivial, if_pos hat]
    simp [Nat.add_comm]
  have := Env.shift_go pre a true (by omega) h0 h1 a 0 { stop := a.length }
    { start := pre.length, stop := (pre ++ a ++ [62]).length, lastCh := 58, hasBracket := true } rfl
    (by omega)
    ⟨by simp, rfl, Or.inr ⟨rfl, rfl, (by decide : (58 : UInt8) ≠ 46), (by decide : (58 : UInt8) ≠ 64)⟩, rfl, rfl, rfl, rfl, rfl, by simp,
      by simpa using List.length_pos_iff.mpr ha⟩ ha
  rw [complete_eq a ha, ← this, complete_eq _ (by simp)]
  unfold Env.complete
  simp only [if_true]
  rw [show pre ++ a ++ [62] = pre ++ (a ++ [62]) by simp] at hlen ⊢
  rw [← hlen, Env.run_append _ _ _ _ _ _ hrun]
  simp

-- hosts "x" and "y.z"
example : HostOk [121, 46, 122] := by
  refine ⟨by decide, by decide, ?_, ?_⟩
  · intro b hb
    simp only [List.mem_cons, List.not_mem_nil, or_false] at hb
    rcases hb with rfl | rfl | rfl <;> exact ⟨⟨by decide, by decide, by decide, by decide, by decide⟩, by decide, by decide⟩
  · intro u v h
    match u with
    | [] => simp at h
    | [_] => simp at h
    | _ :: _ :: u =>
      have := congrArg List.length h
      simp at this; omega

/-- Without brackets a source route is rejected: position 0 of the leading `@` doubles as "no `@`
seen". -/
theorem envelope_bare_route_rejected : parseEnvelope [64, 120, 58, 97, 64, 98] = none := by decide

end Sieve.Address
