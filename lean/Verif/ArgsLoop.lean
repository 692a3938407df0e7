import Verif.ArgsLemmas

/-!
# Arguments: the loop over tags and positional arguments
-/

namespace Sieve.Args

variable {F : Type}

/-- The group of a tag, if it has one. -/
def slotOf (rows : Rows) (w : Word) : Option Nat := (rows.tag w).bind fun r => if r.slot = 0 then none else some r.slot

/-- `Allowed` without the last argument being positional, with some groups taken. -/
structure Fits (x : Ext F) (has : Cap → Bool) (rows : Rows) (chk : List Bool) (ps : List Pos) (items : List (Item F)) :
    Prop where
  tags : ∀ w u a, .tagged w u a ∈ items →
    ∃ r, rows.tag w = some r ∧ (∀ c, r.cap = some c → has c = true) ∧ ArgIs x r.kind u a
  once : (slotsOf rows items).Nodup
  free : ∀ s ∈ slotsOf rows items, chk[s - 1]? ≠ some true
  pos : List.Forall₂ (fun p q => PosIs x has p q.1 q.2) ps (plainOf items)

theorem validate_iff (has : Cap → Bool) (chk : List Bool) (slot : Nat) (cap : Option Cap) (chk' : List Bool) :
    validate has chk slot cap = some chk' ↔
      (0 < slot → chk[slot - 1]? ≠ some true) ∧ (∀ c, cap = some c → has c = true) ∧
        chk' = if 0 < slot then chk.set (slot - 1) true else chk := by
  unfold validate
  rw [← hasAll_iff]
  constructor
  · intro h
    split at h
    · cases h
    · rename_i hn
      split at h
      · rename_i hc
        simp only [Option.some.injEq] at h
        exact ⟨fun h0 h1 => hn ⟨h0, h1⟩, hc, h.symm⟩
      · cases h
  · rintro ⟨h1, h2, rfl⟩
    rw [if_neg (fun h => h1 h.1 h.2), if_pos h2]

theorem slotsOf_plain (rows : Rows) (u : List (Tok F)) (a : Arg F) (items : List (Item F)) :
    slotsOf rows (.plain u a :: items) = slotsOf rows items := rfl

theorem slotsOf_tagged (rows : Rows) (w : Word) (u : List (Tok F)) (a : Arg F) (items : List (Item F)) {r : Row}
    (h : rows.tag w = some r) :
    slotsOf rows (.tagged w u a :: items) = if r.slot = 0 then slotsOf rows items else r.slot :: slotsOf rows items := by
  unfold slotsOf taggedOf
  simp only [List.filterMap_cons, h, Option.bind_some]
  by_cases h0 : r.slot = 0
  · simp only [h0, if_true]
  · simp only [h0, if_false]

/-- The groups taken after one more tag. -/
theorem set_free {chk : List Bool} {slot s : Nat} (hs : 0 < slot) (hl : slot ≤ chk.length) (h0 : 0 < s) :
    (chk.set (slot - 1) true)[s - 1]? ≠ some true ↔ s ≠ slot ∧ chk[s - 1]? ≠ some true := by
  rw [List.getElem?_set]
  by_cases h : slot - 1 = s - 1
  · rw [if_pos h, if_pos (by omega)]
    have : s = slot := by omega
    simp [this]
  · rw [if_neg h]
    constructor
    · intro h'; exact ⟨by omega, h'⟩
    · intro h'; exact h'.2

theorem slot_pos {rows : Rows} {items : List (Item F)} {s : Nat} (h : s ∈ slotsOf rows items) : 0 < s := by
  unfold slotsOf at h
  obtain ⟨p, -, h⟩ := List.mem_filterMap.1 h
  obtain ⟨r, -, h⟩ := Option.bind_eq_some_iff.1 h
  split at h
  · cases h
  · injection h with h; omega

theorem fits_tagged {x : Ext F} {has : Cap → Bool} {rows : Rows} {chk : List Bool} {ps : List Pos} {items : List (Item F)}
    {w : Word} {u : List (Tok F)} {a : Arg F} {r : Row} (hr : rows.tag w = some r) (hl : r.slot ≤ chk.length) :
    Fits x has rows chk ps (.tagged w u a :: items) ↔
      (0 < r.slot → chk[r.slot - 1]? ≠ some true) ∧ (∀ c, r.cap = some c → has c = true) ∧ ArgIs x r.kind u a ∧
        Fits x has rows (if 0 < r.slot then chk.set (r.slot - 1) true else chk) ps items := by
  have hs := slotsOf_tagged rows w u a items hr
  constructor
  · rintro ⟨h1, h2, h3, h4⟩
    obtain ⟨r', hr', hc, ha⟩ := h1 w u a (by simp)
    rw [hr] at hr'
    injection hr' with hr'
    subst hr'
    rw [hs] at h2 h3
    by_cases h0 : r.slot = 0
    · rw [if_pos h0] at h2 h3
      refine ⟨by omega, hc, ha, ?_⟩
      rw [if_neg (by omega)]
      exact ⟨fun w' u' a' h => h1 w' u' a' (by simp [h]), h2, h3, h4⟩
    · rw [if_neg h0] at h2 h3
      refine ⟨fun _ => h3 _ (by simp), hc, ha, ?_⟩
      rw [if_pos (by omega)]
      rw [List.nodup_cons] at h2
      refine ⟨fun w' u' a' h => h1 w' u' a' (by simp [h]), h2.2, fun s hs' => ?_, h4⟩
      rw [set_free (by omega) hl (slot_pos hs')]
      exact ⟨fun h => h2.1 (h ▸ hs'), h3 s (by simp [hs'])⟩
  · rintro ⟨hf, hc, ha, h1, h2, h3, h4⟩
    refine ⟨?_, ?_, ?_, h4⟩
    · intro w' u' a' h
      rcases List.mem_cons.1 h with h | h
      · injection h with e1 e2 e3
        subst e1 e2 e3
        exact ⟨r, hr, hc, ha⟩
      · exact h1 w' u' a' h
    · rw [hs]
      by_cases h0 : r.slot = 0
      · rw [if_pos h0]; exact h2
      · rw [if_neg h0, List.nodup_cons]
        refine ⟨fun hm => ?_, h2⟩
        have := h3 _ hm
        rw [if_pos (by omega), set_free (by omega) hl (by omega)] at this
        exact this.1 rfl
    · rw [hs]
      by_cases h0 : r.slot = 0
      · rw [if_pos h0]
        rw [if_neg (by omega)] at h3
        exact h3
      · rw [if_neg h0]
        intro s hs'
        rcases List.mem_cons.1 hs' with rfl | hs'
        · exact hf (by omega)
        · have := h3 _ hs'
          rw [if_pos (by omega), set_free (by omega) hl (slot_pos hs')] at this
          exact this.2

theorem fits_plain {x : Ext F} {has : Cap → Bool} {rows : Rows} {chk : List Bool} {ps : List Pos} {items : List (Item F)}
    {u : List (Tok F)} {a : Arg F} :
    Fits x has rows chk ps (.plain u a :: items) ↔
      ∃ p ps', ps = p :: ps' ∧ PosIs x has p u a ∧ Fits x has rows chk ps' items := by
  constructor
  · rintro ⟨h1, h2, h3, h4⟩
    rw [show plainOf (.plain u a :: items) = (u, a) :: plainOf items from rfl] at h4
    cases h4 with
    | cons hp h4 => exact ⟨_, _, rfl, hp, fun w' u' a' h => h1 w' u' a' (by simp [h]), h2, h3, h4⟩
  · rintro ⟨p, ps', rfl, hp, h1, h2, h3, h4⟩
    refine ⟨fun w' u' a' h => h1 w' u' a' (by simpa using h), h2, h3, ?_⟩
    exact .cons hp h4

/-- The last argument is positional. -/
def EndsPlain (items : List (Item F)) : Prop := ∃ init u a, items = init ++ [.plain u a]

theorem endsPlain_cons {i : Item F} {items : List (Item F)} (h : EndsPlain (i :: items)) :
    (items = [] ∧ ∃ u a, i = .plain u a) ∨ EndsPlain items := by
  obtain ⟨init, u, a, h⟩ := h
  cases init with
  | nil => simp at h; exact .inl ⟨h.2, u, a, h.1⟩
  | cons j init => injection h with h1 h2; exact .inr ⟨init, u, a, h2⟩

theorem endsPlain_pos {items : List (Item F)} (h : EndsPlain items) : plainOf items ≠ [] := by
  obtain ⟨init, u, a, rfl⟩ := h
  simp [plainOf]

theorem loop_tag {x : Ext F} {has : Cap → Bool} {tag : Word → Option Row} {n : Nat} {chk : List Bool} {p : Pos} {ps : List Pos}
    {g : Got F} {w : Word} {ts : List (Tok F)} {r : Row} (h : tag w = some r) :
    loop x has tag (n + 1) chk (p :: ps) g (.tag w :: ts) = (validate has chk r.slot r.cap).bind fun chk' =>
      (readKind x r.kind ts).bind fun a => loop x has tag n chk' (p :: ps) { g with tags := g.tags ++ [(w, a.1)] } a.2 := by
  rw [loop]
  simp only [h]

theorem loop_pos {x : Ext F} {has : Cap → Bool} {tag : Word → Option Row} {n : Nat} {chk : List Bool} {p : Pos} {ps : List Pos}
    {g : Got F} {ts : List (Tok F)} (h : ∀ w r, tag w = some r → ∀ ts', ts ≠ .tag w :: ts') :
    loop x has tag (n + 1) chk (p :: ps) g ts = (readPos x has p ts).bind fun a =>
      if ps.isEmpty then some ({ g with pos := g.pos ++ [a.1] }, a.2)
      else loop x has tag n chk ps { g with pos := g.pos ++ [a.1] } a.2 := by
  match ts with
  | .tag w :: ts' =>
    rw [loop]
    cases ht : tag w with
    | none => rfl
    | some r => exact absurd rfl (h w r ht ts')
  | [] => rw [loop]; simp
  | t :: ts' =>
    cases t with
    | tag w =>
      rw [loop]
      cases ht : tag w with
      | none => rfl
      | some r => exact absurd rfl (h w r ht ts')
    | _ => rw [loop]; simp

theorem readPos_tag {x : Ext F} {has : Cap → Bool} {p : Pos} {w : Word} {ts : List (Tok F)} :
    readPos x has p (.tag w :: ts) = none := by
  cases h : readPos x has p (.tag w :: ts) with
  | none => rfl
  | some q =>
    obtain ⟨a, r⟩ := q
    obtain ⟨u, hu, hp⟩ := (readPos_iff x has p _ a r).1 h
    obtain ⟨t, ts', rfl, ht⟩ := posIs_tok hp
    injection hu with h1
    exact absurd h1.symm (ht w)

theorem spell_tagged (w : Word) (u : List (Tok F)) (a : Arg F) (items : List (Item F)) :
    spell (.tagged w u a :: items) = .tag w :: (u ++ spell items) := rfl

theorem spell_plain (u : List (Tok F)) (a : Arg F) (items : List (Item F)) :
    spell (.plain u a :: items) = u ++ spell items := rfl

theorem loop_sound (x : Ext F) (has : Cap → Bool) (rows : Rows) :
    ∀ (n : Nat) (chk : List Bool) (ps : List Pos) (g : Got F) (ts : List (Tok F)) (g' : Got F) (r : List (Tok F)),
      (∀ w q, rows.tag w = some q → q.slot ≤ chk.length) →
      loop x has rows.tag n chk ps g ts = some (g', r) →
      ∃ items, Fits x has rows chk ps items ∧ EndsPlain items ∧ ts = spell items ++ r ∧
        g' = ⟨g.tags ++ taggedOf items, g.pos ++ (plainOf items).map (·.2)⟩
  | 0, _, _, _, _, _, _, _, h => by cases h
  | _ + 1, _, [], _, _, _, _, _, h => by cases h
  | n + 1, chk, p :: ps, g, ts, g', r, hrow, h => by
    by_cases hts : ∃ w ts', ts = .tag w :: ts' ∧ ∃ q, rows.tag w = some q
    · obtain ⟨w, ts', rfl, q, hq⟩ := hts
      rw [loop_tag hq] at h
      obtain ⟨chk', hv, h1⟩ := Option.bind_eq_some_iff.1 h
      obtain ⟨⟨a, r1⟩, hk, h2⟩ := Option.bind_eq_some_iff.1 h1
      obtain ⟨u, rfl, ha⟩ := (readKind_iff x q.kind ts' a r1).1 hk
      obtain ⟨hfree, hcap, rfl⟩ := (validate_iff has chk q.slot q.cap chk').1 hv
      have hlen : (if 0 < q.slot then chk.set (q.slot - 1) true else chk).length = chk.length := by split <;> simp
      obtain ⟨items, hf, he, rfl, rfl⟩ := loop_sound x has rows n _ (p :: ps) _ r1 g' r
        (fun w' q' h' => by rw [hlen]; exact hrow w' q' h') h2
      refine ⟨.tagged w u a :: items, (fits_tagged hq (hrow w q hq)).2 ⟨hfree, hcap, ha, hf⟩, ?_, ?_, ?_⟩
      · obtain ⟨init, u', a', rfl⟩ := he
        exact ⟨.tagged w u a :: init, u', a', rfl⟩
      · rw [spell_tagged]; simp
      · simp [taggedOf, plainOf]
    · rw [loop_pos (fun w q hq ts' he => hts ⟨w, ts', he, q, hq⟩)] at h
      obtain ⟨⟨a, r1⟩, hp, h2⟩ := Option.bind_eq_some_iff.1 h
      obtain ⟨u, rfl, hu⟩ := (readPos_iff x has p ts a r1).1 hp
      by_cases hps : ps = []
      · subst hps
        simp only [List.isEmpty_nil, if_true, Option.some.injEq, Prod.mk.injEq] at h2
        obtain ⟨rfl, rfl⟩ := h2
        refine ⟨[.plain u a], fits_plain.2 ⟨p, [], rfl, hu, ⟨by simp, List.nodup_nil, fun s hs => (by cases hs), .nil⟩⟩,
          ⟨[], u, a, rfl⟩, by simp [spell, Item.toks], by simp [taggedOf, plainOf]⟩
      · rw [if_neg (by simpa using hps)] at h2
        obtain ⟨items, hf, he, rfl, rfl⟩ := loop_sound x has rows n chk ps _ r1 g' r hrow h2
        refine ⟨.plain u a :: items, fits_plain.2 ⟨p, ps, rfl, hu, hf⟩, ?_, ?_, ?_⟩
        · obtain ⟨init, u', a', rfl⟩ := he
          exact ⟨.plain u a :: init, u', a', rfl⟩
        · rw [spell_plain]; simp
        · simp [taggedOf, plainOf]

theorem forall₂_nil_left {α β : Type} {R : α → β → Prop} {l : List β} (h : List.Forall₂ R [] l) : l = [] := by
  cases h; rfl

theorem forall₂_nil_right {α β : Type} {R : α → β → Prop} {l : List α} (h : List.Forall₂ R l []) : l = [] := by
  cases h; rfl

theorem loop_complete (x : Ext F) (has : Cap → Bool) (rows : Rows) :
    ∀ (n : Nat) (chk : List Bool) (ps : List Pos) (g : Got F) (items : List (Item F)) (r : List (Tok F)),
      (∀ w q, rows.tag w = some q → q.slot ≤ chk.length) →
      Fits x has rows chk ps items → EndsPlain items → items.length ≤ n →
      loop x has rows.tag n chk ps g (spell items ++ r) =
        some (⟨g.tags ++ taggedOf items, g.pos ++ (plainOf items).map (·.2)⟩, r)
  | 0, _, _, _, items, _, _, _, he, hn => by
    obtain ⟨init, u, a, rfl⟩ := he
    simp at hn
  | n + 1, chk, ps, g, items, r, hrow, hf, he, hn => by
    match items with
    | [] => obtain ⟨init, u, a, h⟩ := he; simp at h
    | .tagged w u a :: items =>
      obtain ⟨q, hq, -, -⟩ := hf.tags w u a (by simp)
      obtain ⟨hfree, hcap, ha, hf'⟩ := (fits_tagged hq (hrow w q hq)).1 hf
      have he' : EndsPlain items := by
        rcases endsPlain_cons he with ⟨-, u', a', h⟩ | h
        · cases h
        · exact h
      have hlen : (if 0 < q.slot then chk.set (q.slot - 1) true else chk).length = chk.length := by split <;> simp
      match ps, hf' with
      | [], hf' => exact absurd (forall₂_nil_left hf'.pos) (endsPlain_pos he')
      | p :: ps, hf' =>
        rw [spell_tagged, List.cons_append, loop_tag hq, (validate_iff _ _ _ _ _).2 ⟨hfree, hcap, rfl⟩, Option.bind_some,
          (readKind_iff x q.kind _ a (spell items ++ r)).2 ⟨u, by simp, ha⟩, Option.bind_some]
        rw [loop_complete x has rows n _ (p :: ps) _ items r (fun w' q' h' => by rw [hlen]; exact hrow w' q' h') hf' he'
          (by simpa using hn)]
        simp [taggedOf, plainOf]
    | .plain u a :: items =>
      obtain ⟨p, ps', rfl, hp, hf'⟩ := fits_plain.1 hf
      obtain ⟨t, ts', hu, ht⟩ := posIs_tok hp
      rw [spell_plain, List.append_assoc]
      rw [loop_pos (by
        intro w q hq ts'' he
        rw [hu] at he
        injection he with h1
        exact ht w h1)]
      rw [(readPos_iff x has p _ a (spell items ++ r)).2 ⟨u, rfl, hp⟩, Option.bind_some]
      rcases endsPlain_cons he with ⟨rfl, -⟩ | he'
      · have hn' : ps' = [] := by
          exact forall₂_nil_right hf'.pos
        subst hn'
        simp [taggedOf, plainOf, spell]
      · have hps : ps' ≠ [] := by
          rintro rfl
          exact endsPlain_pos he' (forall₂_nil_left hf'.pos)
        rw [if_neg (by simpa using hps)]
        rw [loop_complete x has rows n chk ps' _ items r hrow hf' he' (by simpa using hn)]
        simp [taggedOf, plainOf]

theorem item_toks_pos {x : Ext F} {has : Cap → Bool} {rows : Rows} {chk : List Bool} :
    ∀ (items : List (Item F)) (ps : List Pos), Fits x has rows chk ps items →
      (∀ w q, rows.tag w = some q → q.slot ≤ chk.length) → items.length ≤ (spell items).length
  | [], _, _, _ => by simp
  | .plain u a :: items, ps, hf, hrow => by
    obtain ⟨p, ps', rfl, hp, hf'⟩ := fits_plain.1 hf
    obtain ⟨t, ts', rfl, -⟩ := posIs_tok hp
    have := item_toks_pos items ps' hf' hrow
    rw [spell_plain]
    simp
    omega
  | .tagged w u a :: items, ps, hf, hrow => by
    have hf' : Fits x has rows chk ps items := by
      obtain ⟨h1, h2, h3, h4⟩ := hf
      obtain ⟨r, hr, -⟩ := h1 w u a (by simp)
      rw [slotsOf_tagged rows w u a items hr] at h2 h3
      refine ⟨fun w' u' a' h => h1 w' u' a' (by simp [h]), ?_, ?_, h4⟩
      · split at h2
        · exact h2
        · exact (List.nodup_cons.1 h2).2
      · intro s hs
        split at h3
        · exact h3 s hs
        · exact h3 s (by simp [hs])
    have := item_toks_pos items ps hf' hrow
    rw [spell_tagged]
    simp
    omega

theorem noParams_free (s : Nat) : noParams[s]? ≠ some true := by
  unfold noParams
  rw [List.getElem?_replicate]
  split <;> simp

theorem fits_allowed {x : Ext F} {has : Cap → Bool} {rows : Rows} {ps : List Pos} {items : List (Item F)} :
    (Fits x has rows noParams ps items ∧ EndsPlain items) ↔ Allowed x has rows ps items :=
  ⟨fun ⟨h, he⟩ => ⟨h.tags, h.once, h.pos, he⟩,
    fun h => ⟨⟨h.tags, h.once, fun s _ => noParams_free _, h.pos⟩, h.last⟩⟩

end Sieve.Args
