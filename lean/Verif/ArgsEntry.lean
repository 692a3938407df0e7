import Verif.ArgsLoop

/-!
# Arguments: tags only, checks, and the layouts of all commands
-/

namespace Sieve.Args

variable {F : Type}

/-! ## Tags only -/

theorem tagLoop_tag {x : Ext F} {has : Cap → Bool} {tag : Word → Option Row} {n : Nat} {chk : List Bool}
    {g : Got F} {w : Word} {ts : List (Tok F)} {r : Row} (h : tag w = some r) :
    tagLoop x has tag (n + 1) chk g (.tag w :: ts) = (validate has chk r.slot r.cap).bind fun chk' =>
      (readKind x r.kind ts).bind fun a => tagLoop x has tag n chk' { g with tags := g.tags ++ [(w, a.1)] } a.2 := by
  rw [tagLoop]
  simp only [h]

theorem tagLoop_stop {x : Ext F} {has : Cap → Bool} {rows : Rows} {n : Nat} {chk : List Bool}
    {g : Got F} {ts : List (Tok F)} (h : NoTag rows ts) : tagLoop x has rows.tag n chk g ts = some (g, ts) := by
  cases n with
  | zero => rfl
  | succ n =>
    match ts with
    | [] => rfl
    | t :: ts =>
      cases t with
      | tag w => rw [tagLoop]; simp only [h w ts rfl]
      | _ => rfl

theorem tagLoop_sound (x : Ext F) (has : Cap → Bool) (rows : Rows) :
    ∀ (n : Nat) (chk : List Bool) (g : Got F) (ts : List (Tok F)) (g' : Got F) (r : List (Tok F)),
      (∀ w q, rows.tag w = some q → q.slot ≤ chk.length) → ts.length < n →
      tagLoop x has rows.tag n chk g ts = some (g', r) →
      ∃ items, Fits x has rows chk [] items ∧ NoTag rows r ∧ ts = spell items ++ r ∧
        g' = ⟨g.tags ++ taggedOf items, g.pos⟩
  | 0, _, _, _, _, _, _, hn, h => by omega
  | n + 1, chk, g, ts, g', r, hrow, hn, h => by
    by_cases hts : NoTag rows ts
    · rw [tagLoop_stop hts] at h
      simp only [Option.some.injEq, Prod.mk.injEq] at h
      obtain ⟨rfl, rfl⟩ := h
      exact ⟨[], ⟨by simp, List.nodup_nil, fun s hs => (by cases hs), .nil⟩, hts, rfl, by simp [taggedOf]⟩
    · simp only [NoTag, not_forall] at hts
      obtain ⟨w, ts', rfl, hq⟩ := hts
      obtain ⟨q, hq⟩ := Option.ne_none_iff_exists'.1 hq
      rw [tagLoop_tag hq] at h
      obtain ⟨chk', hv, h1⟩ := Option.bind_eq_some_iff.1 h
      obtain ⟨⟨a, r1⟩, hk, h2⟩ := Option.bind_eq_some_iff.1 h1
      obtain ⟨u, rfl, ha⟩ := (readKind_iff x q.kind ts' a r1).1 hk
      obtain ⟨hfree, hcap, rfl⟩ := (validate_iff has chk q.slot q.cap chk').1 hv
      have hlen : (if 0 < q.slot then chk.set (q.slot - 1) true else chk).length = chk.length := by split <;> simp
      obtain ⟨items, hf, he, rfl, rfl⟩ := tagLoop_sound x has rows n _ _ r1 g' r
        (fun w' q' h' => by rw [hlen]; exact hrow w' q' h') (by simp at hn; omega) h2
      refine ⟨.tagged w u a :: items, (fits_tagged hq (hrow w q hq)).2 ⟨hfree, hcap, ha, hf⟩, he, ?_, ?_⟩
      · rw [spell_tagged]; simp
      · simp [taggedOf]

theorem tagLoop_complete (x : Ext F) (has : Cap → Bool) (rows : Rows) :
    ∀ (n : Nat) (chk : List Bool) (g : Got F) (items : List (Item F)) (r : List (Tok F)),
      (∀ w q, rows.tag w = some q → q.slot ≤ chk.length) →
      Fits x has rows chk [] items → NoTag rows r → items.length ≤ n →
      tagLoop x has rows.tag n chk g (spell items ++ r) = some (⟨g.tags ++ taggedOf items, g.pos⟩, r)
  | n, chk, g, [], r, hrow, hf, hr, hn => by
    rw [show spell ([] : List (Item F)) ++ r = r from rfl, tagLoop_stop hr]
    simp [taggedOf]
  | n, chk, g, .plain u a :: items, r, hrow, hf, hr, hn => by
    obtain ⟨p, ps', h, -⟩ := fits_plain.1 hf
    cases h
  | 0, chk, g, .tagged w u a :: items, r, hrow, hf, hr, hn => by simp at hn
  | n + 1, chk, g, .tagged w u a :: items, r, hrow, hf, hr, hn => by
    obtain ⟨q, hq, -, -⟩ := hf.tags w u a (by simp)
    obtain ⟨hfree, hcap, ha, hf'⟩ := (fits_tagged hq (hrow w q hq)).1 hf
    have hlen : (if 0 < q.slot then chk.set (q.slot - 1) true else chk).length = chk.length := by split <;> simp
    rw [spell_tagged, List.cons_append, tagLoop_tag hq, (validate_iff _ _ _ _ _).2 ⟨hfree, hcap, rfl⟩, Option.bind_some,
      (readKind_iff x q.kind _ a (spell items ++ r)).2 ⟨u, by simp, ha⟩, Option.bind_some]
    rw [tagLoop_complete x has rows n _ _ items r (fun w' q' h' => by rw [hlen]; exact hrow w' q' h') hf' hr
      (by simpa using hn)]
    simp [taggedOf]

theorem plainOf_nil {items : List (Item F)} : plainOf items = [] ↔ ∀ i ∈ items, ∃ w u a, i = .tagged w u a := by
  unfold plainOf
  rw [List.filterMap_eq_nil_iff]
  constructor
  · intro h i hi
    have := h i hi
    cases i with
    | tagged w u a => exact ⟨w, u, a, rfl⟩
    | plain u a => cases this
  · intro h i hi
    obtain ⟨w, u, a, rfl⟩ := h i hi
    rfl

/-! ## Checks after the arguments -/

theorem hasTag_iff (g : Got F) (w : Word) : g.hasTag w = true ↔ Uses g w := by
  unfold Got.hasTag Uses
  rw [List.any_eq_true]
  constructor
  · rintro ⟨⟨w', a⟩, hm, h⟩
    simp only [decide_eq_true_eq] at h
    subst h
    exact ⟨a, hm⟩
  · rintro ⟨a, h⟩
    exact ⟨(w, a), h, by simp⟩

theorem mimeCheck_iff (g : Got F) : mimeCheck g = true ↔
    ∀ o ∈ [Word.AnyChild, .Type, .Subtype, .ContentType, .Param], Uses g o → Uses g .Mime := by
  simp only [← hasTag_iff, mimeCheck]
  simp only [List.mem_cons, List.not_mem_nil, or_false, forall_eq_or_imp, forall_eq]
  cases g.hasTag .Mime <;> cases g.hasTag .AnyChild <;> cases g.hasTag .Type <;> cases g.hasTag .Subtype <;>
    cases g.hasTag .ContentType <;> cases g.hasTag .Param <;> decide

theorem fccCheck_iff (g : Got F) : fccCheck g = true ↔
    ∀ o ∈ [Word.Create, .Flags, .SpecialUse, .MailboxId], Uses g o → Uses g .Fcc := by
  simp only [← hasTag_iff, fccCheck]
  simp only [List.mem_cons, List.not_mem_nil, or_false, forall_eq_or_imp, forall_eq]
  cases g.hasTag .Fcc <;> cases g.hasTag .Create <;> cases g.hasTag .Flags <;> cases g.hasTag .SpecialUse <;>
    cases g.hasTag .MailboxId <;> decide

theorem regexCheck_iff (x : Ext F) (g : Got F) (keys : List (Val F)) : regexCheck x g keys = true ↔
    (Uses g .Regex → ∀ s, .text s ∈ keys → x.regexOk s = true) := by
  unfold regexCheck
  rw [← hasTag_iff]
  have ha : keys.all (textOk x.regexOk) = true ↔ ∀ s, .text s ∈ keys → x.regexOk s = true := by
    rw [List.all_eq_true]
    constructor
    · intro h s hs; exact h _ hs
    · intro h v hv
      exact (textOk_iff _ _).2 fun s hs => h s (hs ▸ hv)
  rw [← ha]
  cases g.hasTag .Regex <;> simp

theorem varName_iff (x : Ext F) (v : Val F) : varName x v = true ↔ ∃ s, v = .text s ∧ x.nameOk s = true := by
  cases v <;> simp [varName]

theorem check_iff (x : Ext F) (w : Word) (g : Got F) (tail : Option (List (Val F))) :
    check x w g tail = true ↔ Checked x w g tail := by
  have hm := mimeCheck_iff g
  have hf := fccCheck_iff g
  have hr := regexCheck_iff x g
  have hlast : ∀ w', w' ≠ .DeleteHeader → w' ≠ .HasFlag → ∀ t, keysOf w' g t = g.lastVals := by
    intro w' h1 h2 t
    unfold keysOf Got.lastVals
    rw [if_neg h1, if_neg h2]
    generalize g.pos.getLast? = o
    cases o with
    | none => rfl
    | some a => cases a <;> rfl
  constructor
  · intro h
    refine ⟨fun hw => ?_, fun hw => ?_, fun hw => ?_, fun hw ht => ?_, fun hw ht => ?_⟩
    · simp only [List.mem_cons, List.not_mem_nil, or_false] at hw
      rcases hw with rfl | rfl | rfl | rfl | rfl <;> simp only [check, Bool.and_eq_true] at h <;>
        first | exact hm.1 h.1 | exact hm.1 h
    · simp only [List.mem_cons, List.not_mem_nil, or_false] at hw
      rcases hw with rfl | rfl <;> exact hf.1 h
    · simp only [List.mem_cons, List.not_mem_nil, or_false] at hw
      rcases hw with rfl | rfl | rfl | rfl | rfl | rfl | rfl | rfl | rfl | rfl | rfl | rfl | rfl
      case inr.inr.inr.inl =>
        simp only [check, Bool.and_eq_true] at h
        exact (hr _).1 h.2
      case inr.inr.inr.inr.inr.inr.inr.inr.inr.inr.inr.inr =>
        cases tail with
        | none => exact (hr _).1 h
        | some l =>
          simp only [check, Bool.and_eq_true] at h
          exact (hr _).1 h.2
      all_goals
        simp only [check, Bool.and_eq_true] at h
        rw [hlast _ (by decide) (by decide)]
        first | exact (hr _).1 h.2 | exact (hr _).1 h
    · subst hw
      cases tail with
      | none => exact absurd rfl ht
      | some l =>
        simp only [check, Bool.and_eq_true, List.all_eq_true] at h
        intro v hv
        exact (varName_iff x v).1 (h.1 v hv)
    · subst hw
      cases tail with
      | none => exact absurd rfl ht
      | some l =>
        rw [hlast _ (by decide) (by decide)]
        simpa [check] using h
  · rintro ⟨h1, h2, h3, h4, h5⟩
    cases w
    case Header =>
      simp only [check, Bool.and_eq_true]
      exact ⟨hm.2 (h1 (by decide)), (hr _).2 (hlast .Header (by decide) (by decide) tail ▸ h3 (by decide))⟩
    case Address =>
      simp only [check, Bool.and_eq_true]
      exact ⟨hm.2 (h1 (by decide)), (hr _).2 (hlast .Address (by decide) (by decide) tail ▸ h3 (by decide))⟩
    case Date =>
      simp only [check, Bool.and_eq_true]
      exact ⟨hm.2 (h1 (by decide)), (hr _).2 (hlast .Date (by decide) (by decide) tail ▸ h3 (by decide))⟩
    case Exists => exact hm.2 (h1 (by decide))
    case DeleteHeader =>
      simp only [check, Bool.and_eq_true]
      exact ⟨hm.2 (h1 (by decide)), (hr _).2 (h3 (by decide))⟩
    case Notify => exact hf.2 (h2 (by decide))
    case Vacation => exact hf.2 (h2 (by decide))
    case HasFlag =>
      cases tail with
      | none => exact (hr _).2 (h3 (by decide))
      | some l =>
        simp only [check, Bool.and_eq_true, List.all_eq_true]
        exact ⟨fun v hv => (varName_iff x v).2 (h4 rfl (by simp) v hv), (hr _).2 (h3 (by decide))⟩
    case SpecialUseExists =>
      cases tail with
      | none => rfl
      | some l =>
        have := h5 rfl (by simp)
        rw [hlast _ (by decide) (by decide)] at this
        simp [check, this]
    all_goals first
      | rfl
      | (have h6 := h3 (by decide)
         rw [hlast _ (by decide) (by decide)] at h6
         exact (hr _).2 h6)

/-! ## The layouts -/

theorem startsString_iff (r : List (Tok F)) : startsString r = false ↔ NoString r := by
  cases r with
  | nil => simp [startsString, NoString]
  | cons t r => cases t <;> simp [startsString, NoString]

theorem startsString_of_list {x : Ext F} {u : List (Tok F)} {vs : List (Val F)} (h : IsList (IsLit x) u vs) (r : List (Tok F)) :
    startsString (u ++ r) = true := by
  cases h with
  | one h => cases h <;> rfl
  | list h => rfl

theorem readTail_iff (x : Ext F) (ts : List (Tok F)) (o : Option (List (Val F))) (r : List (Tok F)) :
    readTail x ts = some (o, r) ↔
      (o = none ∧ ts = r ∧ NoString r) ∨ ∃ u vs, o = some vs ∧ ts = u ++ r ∧ IsList (IsLit x) u vs := by
  unfold readTail
  constructor
  · intro h
    split at h
    · obtain ⟨⟨vs, q⟩, hv, h⟩ := Option.map_eq_some_iff.1 h
      simp only [Prod.mk.injEq] at h
      obtain ⟨rfl, rfl⟩ := h
      obtain ⟨u, hu, hl⟩ := (readStrings_iff x ts vs q).1 hv
      exact .inr ⟨u, vs, rfl, hu, hl⟩
    · rename_i hs
      simp only [Option.some.injEq, Prod.mk.injEq] at h
      obtain ⟨rfl, rfl⟩ := h
      exact .inl ⟨rfl, rfl, (startsString_iff ts).1 (by simpa using hs)⟩
  · rintro (⟨rfl, rfl, h⟩ | ⟨u, vs, rfl, rfl, h⟩)
    · rw [if_neg (by simp [(startsString_iff ts).2 h])]
    · rw [if_pos (startsString_of_list h r), (readStrings_iff x _ vs r).2 ⟨u, rfl, h⟩]
      rfl

theorem readKeep_iff (x : Ext F) (has : Cap → Bool) (w : Word) (ts : List (Tok F)) (g : Got F) (r : List (Tok F)) :
    readKeep x has ts = some (g, r) ↔ ∃ u, ts = u ++ r ∧ Reads x has w .keep u r g := by
  by_cases hts : ∃ ts', ts = .tag .Flags :: ts'
  · obtain ⟨ts', rfl⟩ := hts
    simp only [readKeep]
    constructor
    · intro h
      split at h
      · rename_i hh
        obtain ⟨⟨vs, q⟩, hv, h⟩ := Option.map_eq_some_iff.1 h
        simp only [Prod.mk.injEq] at h
        obtain ⟨rfl, rfl⟩ := h
        obtain ⟨u, rfl, hl⟩ := (readStrings_iff x ts' vs q).1 hv
        exact ⟨_, rfl, .keepFlags hh hl⟩
      · cases h
    · rintro ⟨u, hu, h⟩
      cases h with
      | noFlags h => exact absurd hu.symm (h ts')
      | keepFlags hh hl =>
        injection hu with _ hu
        rw [if_pos hh, (readStrings_iff x ts' _ r).2 ⟨_, hu, hl⟩]
        rfl
  · have hk : readKeep x has ts = some ({}, ts) := by
      unfold readKeep
      split
      · exact absurd ⟨_, rfl⟩ hts
      · rfl
    rw [hk]
    constructor
    · intro h
      simp only [Option.some.injEq, Prod.mk.injEq] at h
      obtain ⟨rfl, rfl⟩ := h
      exact ⟨[], rfl, .noFlags fun r' h => hts ⟨r', h⟩⟩
    · rintro ⟨u, hu, h⟩
      cases h with
      | noFlags h => simp at hu; simp [hu]
      | keepFlags hh hl => exact absurd ⟨_, hu⟩ hts

theorem readFlags_iff (x : Ext F) (has : Cap → Bool) (w : Word) (ts : List (Tok F)) (g : Got F) (r : List (Tok F)) :
    readFlags x ts = some (g, r) ↔ ∃ u, ts = u ++ r ∧ Reads x has w .flags u r g := by
  cases ts with
  | nil =>
    constructor
    · intro h; cases h
    · rintro ⟨u, hu, h⟩; cases h <;> cases hu
  | cons t ts =>
    by_cases hc : (∃ s, constText x t = some s) ∧ startsString ts = true
    · obtain ⟨⟨s, hs⟩, hst⟩ := hc
      have e : readFlags x (t :: ts) =
          if x.nameOk s then (readStrings x ts).map fun p => ({ pos := [.text s, .vals p.1] }, p.2) else none := by
        simp only [readFlags, hs, hst]
      rw [e]
      have hcs := (constText_iff x t s).1 hs
      constructor
      · intro h
        split at h
        · rename_i hn
          obtain ⟨⟨vs, q⟩, hv, h⟩ := Option.map_eq_some_iff.1 h
          simp only [Prod.mk.injEq] at h
          obtain ⟨rfl, rfl⟩ := h
          obtain ⟨u, rfl, hl⟩ := (readStrings_iff x ts vs q).1 hv
          exact ⟨t :: u, rfl, .flagsOf hcs hn hl⟩
        · cases h
      · rintro ⟨u, hu, h⟩
        cases h with
        | flagsOf hc' hn hl =>
          injection hu with h1 hu
          subst h1
          have hs' := (constText_iff x t _).2 hc'
          rw [hs] at hs'
          injection hs' with hs'
          subst hs'
          rw [if_pos hn, (readStrings_iff x ts _ r).2 ⟨_, hu, hl⟩]
          rfl
        | flagList hl => injection hu with h1; subst h1; exact absurd rfl (isConst_tok hcs).2.2.1
        | flag hl =>
          injection hu with h1 hu
          simp at hu
          subst hu
          cases hst
    · have e : readFlags x (t :: ts) = if flagsOnly (t :: ts) then
          (readStrings x (t :: ts)).map fun p => ({ pos := [.vals p.1] }, p.2) else none := by
        simp only [readFlags]
        split
        · rename_i s h1 h2
          exact absurd ⟨⟨s, h1⟩, h2⟩ hc
        · rfl
      rw [e]
      constructor
      · intro h
        split at h
        · rename_i hf
          obtain ⟨⟨vs, q⟩, hv, h⟩ := Option.map_eq_some_iff.1 h
          simp only [Prod.mk.injEq] at h
          obtain ⟨rfl, rfl⟩ := h
          obtain ⟨u, hu, hl⟩ := (readStrings_iff x _ vs q).1 hv
          refine ⟨u, hu, ?_⟩
          cases hl with
          | one hi =>
            injection hu with h1 hu
            subst h1
            cases ts with
            | nil => cases hi <;> cases hf
            | cons t' ts' =>
              cases t' with
              | semicolon => simp at hu; subst hu; exact .flag hi
              | _ => cases hi <;> cases hf
          | list hi => exact .flagList (.list hi)
        · cases h
      · rintro ⟨u, hu, h⟩
        cases h with
        | flagsOf hc' hn hl =>
          injection hu with h1 hu
          subst h1
          refine absurd ⟨⟨_, (constText_iff x t _).2 hc'⟩, ?_⟩ hc
          rw [hu]
          exact startsString_of_list hl r
        | flagList hl =>
          have hf : flagsOnly (t :: ts) = true := by injection hu with h1; subst h1; rfl
          rw [if_pos hf, (readStrings_iff x _ _ r).2 ⟨_, hu, hl⟩]
          rfl
        | flag hl =>
          have hf : flagsOnly (t :: ts) = true := by
            simp at hu
            obtain ⟨rfl, rfl⟩ := hu
            cases hl <;> rfl
          rw [if_pos hf, (readStrings_iff x _ _ _).2 ⟨_, hu, .one hl⟩]
          rfl

theorem readSize_iff (x : Ext F) (has : Cap → Bool) (w : Word) (ts : List (Tok F)) (g : Got F) (r : List (Tok F)) :
    readSize ts = some (g, r) ↔ ∃ u, ts = u ++ r ∧ Reads x has w .size u r g := by
  constructor
  · intro h
    unfold readSize at h
    split at h
    · simp only [Option.some.injEq, Prod.mk.injEq] at h
      obtain ⟨rfl, rfl⟩ := h
      exact ⟨_, rfl, .over⟩
    · simp only [Option.some.injEq, Prod.mk.injEq] at h
      obtain ⟨rfl, rfl⟩ := h
      exact ⟨_, rfl, .under⟩
    · cases h
  · rintro ⟨u, rfl, h⟩
    cases h <;> rfl

/-- Every group of a layout fits into the array of `validate_argument`. -/
def Shape.SlotsOk : Shape → Prop
  | .args rows _ _ | .tags rows => ∀ p ∈ rows, p.2.slot ≤ maxParams
  | _ => True

theorem tag_mem {rows : Rows} {w : Word} {q : Row} (h : rows.tag w = some q) : (w, q) ∈ rows := by
  unfold Rows.tag at h
  obtain ⟨⟨w', q'⟩, h1, h2⟩ := Option.map_eq_some_iff.1 h
  have := List.find?_some h1
  simp only [decide_eq_true_eq] at this
  subst this
  subst h2
  exact List.mem_of_find?_eq_some h1

theorem slots_row {rows : Rows} (h : ∀ p ∈ rows, p.2.slot ≤ maxParams) :
    ∀ w q, rows.tag w = some q → q.slot ≤ noParams.length := by
  intro w q hq
  rw [show noParams.length = maxParams by simp [noParams]]
  exact h _ (tag_mem hq)

theorem loop_spec (x : Ext F) (has : Cap → Bool) {rows : Rows} (hs : ∀ p ∈ rows, p.2.slot ≤ maxParams) (ps : List Pos)
    (ts : List (Tok F)) (g : Got F) (r : List (Tok F)) :
    loop x has rows.tag (ts.length + 1) noParams ps {} ts = some (g, r) ↔
      ∃ items, Allowed x has rows ps items ∧ ts = spell items ++ r ∧ g = gotOf items := by
  constructor
  · intro h
    obtain ⟨items, hf, he, hu, hg⟩ := loop_sound x has rows _ _ _ _ _ _ _ (slots_row hs) h
    exact ⟨items, fits_allowed.1 ⟨hf, he⟩, hu, by simpa [gotOf] using hg⟩
  · rintro ⟨items, ha, rfl, rfl⟩
    obtain ⟨hf, he⟩ := fits_allowed.2 ha
    rw [loop_complete x has rows _ _ _ _ items r (slots_row hs) hf he (by
      have := item_toks_pos items ps hf (slots_row hs)
      simp; omega)]
    simp [gotOf]

theorem readShape_iff (x : Ext F) (has : Cap → Bool) (w : Word) (s : Shape) (hs : s.SlotsOk) (ts : List (Tok F)) (g : Got F)
    (r : List (Tok F)) : readShape x has w s ts = some (g, r) ↔ ∃ u, ts = u ++ r ∧ Reads x has w s u r g := by
  cases s with
  | nothing =>
    simp only [readShape, Option.some.injEq, Prod.mk.injEq]
    constructor
    · rintro ⟨rfl, rfl⟩; exact ⟨[], rfl, .nothing _⟩
    · rintro ⟨u, rfl, h⟩; cases h; exact ⟨rfl, rfl⟩
  | keep => exact readKeep_iff x has w ts g r
  | flags => exact readFlags_iff x has w ts g r
  | size => exact readSize_iff x has w ts g r
  | tags rows =>
    simp only [readShape]
    constructor
    · intro h
      obtain ⟨items, hf, hr, hu, hg⟩ := tagLoop_sound x has rows _ _ _ _ _ _ (slots_row hs) (by omega) h
      have hp : plainOf items = [] := forall₂_nil_left hf.pos
      have hg' : g = gotOf items := by simpa [gotOf, hp] using hg
      subst hg'
      exact ⟨_, hu, .tags (plainOf_nil.1 hp) hf.tags hf.once hr⟩
    · rintro ⟨u, rfl, h⟩
      cases h with
      | tags ht h1 h2 hr =>
        rename_i items
        have hp := plainOf_nil.2 ht
        have hf : Fits x has rows noParams [] items := ⟨h1, h2, fun s _ => noParams_free _, by rw [hp]; exact .nil⟩
        rw [tagLoop_complete x has rows _ _ _ items r (slots_row hs) hf hr (by
          have := item_toks_pos items [] hf (slots_row hs)
          simp; omega)]
        simp [gotOf, hp]
  | args rows ps tail =>
    have hl := loop_spec x has (rows := rows) hs ps ts
    cases tail with
    | false =>
      simp only [readShape, Option.bind_eq_some_iff, Bool.false_eq_true, if_false]
      constructor
      · rintro ⟨⟨g1, r1⟩, h1, h2⟩
        obtain ⟨items, ha, rfl, rfl⟩ := (hl g1 r1).1 h1
        split at h2
        · rename_i hc
          simp only [Option.some.injEq, Prod.mk.injEq] at h2
          obtain ⟨rfl, rfl⟩ := h2
          exact ⟨_, rfl, .args ha ((check_iff x w _ none).1 hc)⟩
        · cases h2
      · rintro ⟨u, hu, h⟩
        cases h with
        | args ha hc =>
          rename_i items
          exact ⟨(gotOf items, r), (hl _ r).2 ⟨items, ha, hu, rfl⟩, by rw [if_pos ((check_iff x w _ none).2 hc)]⟩
    | true =>
      simp only [readShape, Option.bind_eq_some_iff, if_true]
      constructor
      · rintro ⟨⟨g1, r1⟩, h1, ⟨o, r2⟩, h2, h3⟩
        obtain ⟨items, ha, rfl, rfl⟩ := (hl g1 r1).1 h1
        split at h3
        · rename_i hc
          have hc' := (check_iff x w _ o).1 hc
          rcases (readTail_iff x r1 o r2).1 h2 with ⟨rfl, rfl, hn⟩ | ⟨u, vs, rfl, rfl, hl'⟩
          · simp only [List.append_nil, Option.some.injEq, Prod.mk.injEq] at h3
            obtain ⟨rfl, rfl⟩ := h3
            exact ⟨_, rfl, .noTail ha hn hc'⟩
          · simp only [Option.some.injEq, Prod.mk.injEq] at h3
            obtain ⟨rfl, rfl⟩ := h3
            exact ⟨spell items ++ u, by simp, .tail ha hl' hc'⟩
        · cases h3
      · rintro ⟨u, hu, h⟩
        cases h with
        | noTail ha hn hc =>
          rename_i items
          refine ⟨(gotOf items, r), (hl _ r).2 ⟨items, ha, hu, rfl⟩, (none, r), (readTail_iff x r none r).2 (.inl ⟨rfl, rfl, hn⟩), ?_⟩
          rw [if_pos ((check_iff x w _ none).2 hc)]
          simp [gotOf]
        | tail ha hl' hc =>
          rename_i items u vs
          refine ⟨(gotOf items, u ++ r), (hl _ _).2 ⟨items, ha, by simpa using hu, rfl⟩, (some vs, r),
            (readTail_iff x _ _ r).2 (.inr ⟨u, vs, rfl, rfl, hl'⟩), ?_⟩
          rw [if_pos ((check_iff x w _ _).2 hc)]
          simp [gotOf]

end Sieve.Args
