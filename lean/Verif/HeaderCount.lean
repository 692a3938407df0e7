import Verif.TestsCount
import Verif.WrittenOtherProps

/-!
# What `header :count`, `address :count` and `date :count` count, with any `:index`, `:anychild` and options of `:mime`
-/

namespace Sieve.Tests

open Sieve.Expr (Val)

variable {F N : Type}

/-- The sum of what each header field adds that has one of the names, is in one of the parts, and is chosen by its
position; a field counts for each of the names. -/
def summed (parts : List (Mime.Part N Field)) (ids : List Nat) (names : List N)
    (chosen : List (Mime.Header N Field) → N → Nat → Bool) (adds : Field → Nat) : Nat :=
  (ids.map fun id =>
    match parts[id]? with
    | none => 0
    | some p => (names.map fun n => (p.headers.zipIdx.map fun h => if chosen p.headers n h.2 then adds h.1.value else 0).sum).sum).sum

/-- What a header field adds to the number that `header :count` compares: without options of `:mime` it counts as one; with
`:type`, `:subtype` or `:contenttype` as one if it is a content type; with `:param` each of its parameters that has one of the
names counts. -/
inductive Adds (x : Ext F) (f : Field) : MimeOpts → Nat → Prop where
  | field : Adds x f .none 1
  | typed {o ct} : o = .type ∨ o = .subtype ∨ o = .contentType → f.parsed = .contentType ct → Adds x f o 1
  | params {ct names as} {named : Str × Str → Bool} : f.parsed = .contentType ct → ct.attrs = some as →
      (∀ a, named a = true ↔ ∃ n ∈ names, x.eqIgnoreCase n a.1 = true) → Adds x f (.param names) (as.countP named)
  | noParams {ct names} : f.parsed = .contentType ct → ct.attrs = none → Adds x f (.param names) 0
  | untyped {o} : o ≠ .none → (∀ ct, f.parsed ≠ .contentType ct) → Adds x f o 0

theorem adds_iff (x : Ext F) (f : Field) (o : MimeOpts) (n : Nat) : Adds x f o n ↔ n = headerCount x o f := by
  constructor
  · intro h
    cases h with
    | field => rfl
    | typed h1 h2 => rcases h1 with rfl | rfl | rfl <;> simp [headerCount, h2]
    | @params ct names as named h1 h2 h3 =>
      have : named = fun a => names.any fun n => x.eqIgnoreCase n a.1 := by
        funext a
        rw [Bool.eq_iff_iff, h3, List.any_eq_true]
      simp only [headerCount, h1, h2, this, List.countP_eq_length_filter]
    | noParams h1 h2 => simp [headerCount, h1, h2]
    | untyped h1 h2 =>
      cases o with
      | none => exact absurd rfl h1
      | _ => cases h : f.parsed <;> first | (exact absurd h (h2 _)) | simp [headerCount, h]
  · rintro rfl
    by_cases h : ∃ ct, f.parsed = .contentType ct
    · obtain ⟨ct, h⟩ := h
      cases o with
      | none => exact .field
      | param names =>
        cases ha : ct.attrs with
        | none =>
          have : headerCount x (.param names) f = 0 := by simp [headerCount, h, ha]
          rw [this]
          exact .noParams h ha
        | some as =>
          have : headerCount x (.param names) f = as.countP fun a => names.any fun n => x.eqIgnoreCase n a.1 := by
            simp only [headerCount, h, ha, List.countP_eq_length_filter]
          rw [this]
          exact .params h ha (by simp)
      | _ => simp only [headerCount, h]; exact .typed (by simp) h
    · have h' : ∀ ct, f.parsed ≠ .contentType ct := fun ct hc => h ⟨ct, hc⟩
      cases o with
      | none => exact .field
      | param names =>
        have : headerCount x (.param names) f = 0 := by
          cases hp : f.parsed <;> first | (exact absurd hp (h' _)) | simp [headerCount, hp]
        rw [this]
        exact .untyped (by simp) h'
      | type =>
        have : headerCount x .type f = 0 := by
          cases hp : f.parsed <;> first | (exact absurd hp (h' _)) | simp [headerCount, hp]
        rw [this]
        exact .untyped (by simp) h'
      | subtype =>
        have : headerCount x .subtype f = 0 := by
          cases hp : f.parsed <;> first | (exact absurd hp (h' _)) | simp [headerCount, hp]
        rw [this]
        exact .untyped (by simp) h'
      | contentType =>
        have : headerCount x .contentType f = 0 := by
          cases hp : f.parsed <;> first | (exact absurd hp (h' _)) | simp [headerCount, hp]
        rw [this]
        exact .untyped (by simp) h'

/-- What a header field adds to the number that `address :count` compares: the number of its addresses of which the
requested part is there and not empty. -/
inductive AddsAddrs (x : Ext F) (part : AddrPart) (f : Field) : Nat → Prop where
  | addrs {l} {there : Addr → Bool} : HasAddrs x f l → (∀ a, there a = true ↔ ∃ v, PartOf x a part v ∧ v ≠ []) →
      AddsAddrs x part f (l.countP there)
  | none : (∀ l, ¬ HasAddrs x f l) → AddsAddrs x part f 0

theorem addressValues_eq (x : Ext F) (part : AddrPart) (f : Field) :
    (∃ l, HasAddrs x f l ∧ addressValues x part f = l.filterMap (evalAddr x part)) ∨
      (∀ l, ¬ HasAddrs x f l) ∧ addressValues x part f = [[]] := by
  have e : addressValues x part f =
      match addrsOf f.parsed with
      | some l => l.filterMap (evalAddr x part)
      | none =>
        match addrsOf (x.parseAddress (fieldText x f)) with
        | some l => l.filterMap (evalAddr x part)
        | none => [[]] := by
    unfold addressValues fieldText
    cases f.added <;> cases f.parsed <;> rfl
  rw [e]
  cases h1 : addrsOf f.parsed with
  | some l => exact .inl ⟨l, .inl ((addrsOf_iff _ _).mp h1), rfl⟩
  | none =>
    have h : ∀ l, ¬ AddrList f.parsed l := fun l hl => by
      rw [(addrsOf_iff _ _).mpr hl] at h1; cases h1
    cases h5 : addrsOf (x.parseAddress (fieldText x f)) with
    | some l => exact .inl ⟨l, .inr ⟨h, (addrsOf_iff _ _).mp h5⟩, rfl⟩
    | none =>
      refine .inr ⟨?_, rfl⟩
      rintro l (hl | ⟨-, hl⟩)
      · exact h l hl
      · rw [(addrsOf_iff _ _).mpr hl] at h5; cases h5

theorem hasAddrs_unique {x : Ext F} {f : Field} {l l' : List Addr} (h : HasAddrs x f l) (h' : HasAddrs x f l') : l = l' := by
  have u : ∀ {p : Parsed} {l l' : List Addr}, AddrList p l → AddrList p l' → l = l' := fun h h' => by
    rw [← addrsOf_iff] at h h'
    rw [h] at h'
    injection h'
  rcases h with h | ⟨hn, h⟩
  · rcases h' with h' | ⟨hn', -⟩
    · exact u h h'
    · exact absurd h (hn' l)
  · rcases h' with h' | ⟨-, h'⟩
    · exact absurd h' (hn l')
    · exact u h h'

/-- Decides whether the part is there. -/
def isThere (x : Ext F) (part : AddrPart) (a : Addr) : Bool :=
  match evalAddr x part a with
  | some v => !v.isEmpty
  | none => false

theorem isThere_iff (x : Ext F) (part : AddrPart) (a : Addr) : isThere x part a = true ↔ ∃ v, PartOf x a part v ∧ v ≠ [] := by
  unfold isThere
  cases he : evalAddr x part a with
  | none =>
    simp only [Bool.false_eq_true, false_iff]
    rintro ⟨v, hv, -⟩
    rw [(evalAddr_iff ..).mpr hv] at he
    cases he
  | some v =>
    constructor
    · intro hne
      exact ⟨v, (evalAddr_iff ..).mp he, by simpa using hne⟩
    · rintro ⟨w, hw, hne⟩
      rw [(evalAddr_iff ..).mpr hw] at he
      injection he with he
      subst he
      simpa using hne

theorem addsAddrs_iff (x : Ext F) (part : AddrPart) (f : Field) (n : Nat) :
    AddsAddrs x part f n ↔ n = ((addressValues x part f).filter fun v => !v.isEmpty).length := by
  have key : ∀ (l : List Addr) (there : Addr → Bool), (∀ a, there a = true ↔ ∃ v, PartOf x a part v ∧ v ≠ []) →
      l.countP there = ((l.filterMap (evalAddr x part)).filter fun v => !v.isEmpty).length := by
    intro l there h
    induction l with
    | nil => rfl
    | cons a l ih =>
      rw [List.countP_cons, List.filterMap_cons, ih]
      cases he : evalAddr x part a with
      | none =>
        have : there a = false := by
          rw [← Bool.not_eq_true, h]
          rintro ⟨v, hv, -⟩
          rw [(evalAddr_iff ..).mpr hv] at he
          cases he
        simp [this]
      | some v =>
        have : there a = !v.isEmpty := by
          rw [Bool.eq_iff_iff, h]
          constructor
          · rintro ⟨w, hw, hne⟩
            rw [(evalAddr_iff ..).mpr hw] at he
            injection he with he
            subst he
            simpa using hne
          · intro hne
            exact ⟨v, (evalAddr_iff ..).mp he, by simpa using hne⟩
        rw [this]
        cases v <;> simp
  rcases addressValues_eq x part f with ⟨l, hl, e⟩ | ⟨hn, e⟩
  · rw [e]
    constructor
    · rintro (⟨h1, h2⟩ | h1)
      · rw [hasAddrs_unique h1 hl]; exact key _ _ h2
      · exact absurd hl (h1 l)
    · intro h
      rw [h, ← key l _ (isThere_iff x part)]
      exact .addrs hl (isThere_iff x part)
  · rw [e]
    constructor
    · rintro (⟨h1, -⟩ | h1)
      · exact absurd h1 (hn _)
      · rfl
    · rintro rfl
      exact .none hn

variable [DecidableEq N]

theorem select_filter (hs : List (Mime.Header N Field)) (index : Option Int) (n : N) (c : Nat → Bool)
    (hc : ∀ pos, c pos = true ↔ Mime.Selected hs index n pos) :
    Mime.selectHeaders hs index n = hs.zipIdx.filter fun h => c h.2 := by
  have asc : ∀ k, (hs.zipIdx k).Pairwise fun a b => a.2 < b.2 := by
    clear hc
    intro k
    induction hs generalizing k with
    | nil => exact List.Pairwise.nil
    | cons h hs ih =>
      rw [List.zipIdx_cons, List.pairwise_cons]
      refine ⟨fun b hb => ?_, ih _⟩
      have := List.le_snd_of_mem_zipIdx hb
      simp only; omega
  have uniq : ∀ (l l' : List (Mime.Header N Field × Nat)), (l.Pairwise fun a b => a.2 < b.2) →
      (l'.Pairwise fun a b => a.2 < b.2) → (∀ a, a ∈ l ↔ a ∈ l') → l = l' := by
    intro l
    induction l with
    | nil =>
      intro l' _ _ h
      cases l' with
      | nil => rfl
      | cons a l' => exact absurd ((h a).mpr (by simp)) (by simp)
    | cons a l ih =>
      intro l' h1 h2 h
      cases l' with
      | nil => exact absurd ((h a).mp (by simp)) (by simp)
      | cons b l' =>
        rw [List.pairwise_cons] at h1 h2
        have hab : a = b := by
          rcases List.mem_cons.mp ((h a).mp (by simp)) with e | e
          · exact e
          · rcases List.mem_cons.mp ((h b).mpr (by simp)) with e' | e'
            · exact e'.symm
            · have := h1.1 b e'
              have := h2.1 a e
              omega
        subst hab
        rw [ih l' h1.2 h2.2]
        intro y
        constructor
        · intro hy
          rcases List.mem_cons.mp ((h y).mp (List.mem_cons_of_mem _ hy)) with e | e
          · subst e; exact absurd (h1.1 y hy) (by omega)
          · exact e
        · intro hy
          rcases List.mem_cons.mp ((h y).mpr (List.mem_cons_of_mem _ hy)) with e | e
          · subst e; exact absurd (h2.1 y hy) (by omega)
          · exact e
  refine uniq _ _ (Mime.select_ascending hs index n) ((asc 0).filter _) ?_
  rintro ⟨h, pos⟩
  rw [Mime.select_iff, List.mem_filter, hc, List.mem_iff_getElem?]
  constructor
  · rintro ⟨h1, h2⟩
    exact ⟨⟨pos, (Mime.getElem?_zipIdx0 ..).mpr ⟨rfl, h1⟩⟩, h2⟩
  · rintro ⟨⟨j, h1⟩, h2⟩
    exact ⟨((Mime.getElem?_zipIdx0 ..).mp h1).2, h2⟩

theorem found_summed (parts : List (Mime.Part N Field)) (t : Mime.Tree) (ht : Mime.Represents parts t) (names : List N)
    (index : Option Int) (anychild : Bool) (fuel : Nat) (hfuel : t.preorder.length < fuel)
    (chosen : List (Mime.Header N Field) → N → Nat → Bool)
    (hc : ∀ hs n pos, chosen hs n pos = true ↔ Mime.Selected hs index n pos) :
    ∃ found, Mime.findHeaders parts t.id names index anychild fuel = some found ∧
      ∀ w : Field → Nat, ((found.map (·.1)).map fun h => w h.value).sum = summed parts (searched anychild t) names chosen w := by
  refine ⟨_, by rw [Mime.findHeaders, visit_searched parts t ht anychild fuel hfuel]; rfl, ?_⟩
  intro w
  generalize searched anychild t = ids
  have flat : ∀ {α β : Type} (l : List α) (f : α → List β) (w : β → Nat),
      ((l.flatMap f).map w).sum = (l.map fun a => ((f a).map w).sum).sum := by
    intro α β l f w
    induction l with
    | nil => rfl
    | cons a l ih => simp [List.flatMap_cons, ih]
  rw [List.map_map, flat, summed]
  congr 1
  apply List.map_congr_left
  intro id _
  cases parts[id]? with
  | none => rfl
  | some p =>
    simp only
    rw [flat]
    congr 1
    apply List.map_congr_left
    intro n _
    rw [select_filter p.headers index n (chosen p.headers n) (hc _ n), List.map_map]
    generalize p.headers.zipIdx = l
    induction l with
    | nil => rfl
    | cons a l ih =>
      rw [List.map_cons, List.sum_cons, ← ih]
      by_cases h : chosen p.headers n a.2 = true
      · rw [List.filter_cons_of_pos (p := fun h : Mime.Header N Field × Nat => chosen p.headers n h.2) h, if_pos h]
        rfl
      · rw [List.filter_cons_of_neg (p := fun h : Mime.Header N Field × Nat => chosen p.headers n h.2) h, if_neg h, Nat.zero_add]

/-- C39: `header :count` compares the number of fields or parameters that are asked for with each key, whatever `:index`,
`:last`, `:anychild` and the options of `:mime` are. -/
theorem header_count_all {x : Ext F} (hx : x.Ok) (plain : N → Bool) (isNot : Bool) (c : Comparator) (r : Rel) (opts : MimeOpts)
    (parts : List (Mime.Part N Field)) (t : Mime.Tree) (ht : Mime.Represents parts t) (names : List N) (index : Option Int)
    (anychild : Bool) (fuel : Nat) (hfuel : t.preorder.length < fuel) (keys : List (Val F))
    (chosen : List (Mime.Header N Field) → N → Nat → Bool)
    (hc : ∀ hs n pos, chosen hs n pos = true ↔ Mime.Selected hs index n pos)
    (adds : Field → Nat) (ha : ∀ f, Adds x f opts (adds f)) :
    ∃ b, headerExec x plain isNot c (.count r) opts parts t.id names index anychild fuel keys =
        some ⟨.bool (b ^^ isNot), []⟩ ∧
      (b = true ↔ ∃ k ∈ keys, NumSat x.flt (.int (summed parts (searched anychild t) names chosen adds : Nat)) (number x k) r) := by
  obtain ⟨found, h1, h2⟩ := found_summed parts t ht names index anychild fuel hfuel chosen hc
  refine ⟨_, by rw [headerExec, h1]; rfl, ?_⟩
  rw [countTest_iff hx, show adds = headerCount x opts from funext fun f => (adds_iff ..).mp (ha f), ← h2]

/-- C39: `address :count` compares the number of addresses of which the requested part is there with each key. -/
theorem address_count {x : Ext F} (hx : x.Ok) (isNot : Bool) (c : Comparator) (r : Rel) (part : AddrPart)
    (parts : List (Mime.Part N Field)) (t : Mime.Tree) (ht : Mime.Represents parts t) (names : List N) (index : Option Int)
    (anychild : Bool) (fuel : Nat) (hfuel : t.preorder.length < fuel) (keys : List (Val F))
    (chosen : List (Mime.Header N Field) → N → Nat → Bool)
    (hc : ∀ hs n pos, chosen hs n pos = true ↔ Mime.Selected hs index n pos)
    (adds : Field → Nat) (ha : ∀ f, AddsAddrs x part f (adds f)) :
    ∃ b, addressExec x isNot c (.count r) part parts t.id names index anychild fuel keys =
        some ⟨.bool (b ^^ isNot), []⟩ ∧
      (b = true ↔ ∃ k ∈ keys, NumSat x.flt (.int (summed parts (searched anychild t) names chosen adds : Nat)) (number x k) r) := by
  obtain ⟨found, h1, h2⟩ := found_summed parts t ht names index anychild fuel hfuel chosen hc
  refine ⟨_, by rw [addressExec, h1]; rfl, ?_⟩
  rw [countTest_iff hx, ← h2]
  have e : (((found.map (·.1)).flatMap fun h => addressValues x part h.value).filter fun v => !v.isEmpty).length =
      ((found.map (·.1)).map fun h => adds h.value).sum := by
    generalize found.map (·.1) = l
    induction l with
    | nil => rfl
    | cons a l ih =>
      rw [List.flatMap_cons, List.filter_append, List.length_append, ih, List.map_cons, List.sum_cons,
        (addsAddrs_iff ..).mp (ha a.value)]
  rw [e]

/-- C74: `date :count` with any `:index` compares the number of fields with a date with each key. -/
theorem date_count_all {x : Ext F} (hx : x.Ok) (e : DateExt) (isNot : Bool) (c : Comparator) (r : Rel) (zone : Zone)
    (dp : DatePart) (parts : List (Mime.Part N Field)) (t : Mime.Tree) (ht : Mime.Represents parts t) (n : N)
    (index : Option Int) (anychild : Bool) (fuel : Nat) (hfuel : t.preorder.length < fuel) (keys : List (Val F))
    (chosen : List (Mime.Header N Field) → N → Nat → Bool)
    (hc : ∀ hs n pos, chosen hs n pos = true ↔ Mime.Selected hs index n pos)
    (adds : Field → Nat) (ha : ∀ f, (∃ d, FieldDate x e f d) ∧ adds f = 1 ∨ (∀ d, ¬ FieldDate x e f d) ∧ adds f = 0) :
    ∃ b, dateExec x e isNot c (.count r) zone dp parts t.id (some n) index anychild fuel keys =
        some ⟨.bool (b ^^ isNot), []⟩ ∧
      (b = true ↔ ∃ k ∈ keys, NumSat x.flt (.int (summed parts (searched anychild t) [n] chosen adds : Nat)) (number x k) r) := by
  obtain ⟨found, h1, h2⟩ := found_summed parts t ht [n] index anychild fuel hfuel chosen hc
  refine ⟨_, by rw [dateExec, h1, Option.map_some, dateTest], ?_⟩
  rw [countTest_iff hx, ← h2]
  have e : ((found.map (·.1)).filterMap fun h => findDate e x.utf8 h.value).length =
      ((found.map (·.1)).map fun h => adds h.value).sum := by
    generalize found.map (·.1) = l
    induction l with
    | nil => rfl
    | cons a l ih =>
      rw [List.filterMap_cons, List.map_cons, List.sum_cons, ← ih]
      cases h : findDate e x.utf8 a.value with
      | none =>
        rcases ha a.value with ⟨⟨d, hd⟩, -⟩ | ⟨-, h0⟩
        · rw [(findDate_iff ..).mpr hd] at h
          cases h
        · rw [h0, Nat.zero_add]
      | some d =>
        rcases ha a.value with ⟨-, h0⟩ | ⟨hn, -⟩
        · rw [h0, List.length_cons, Nat.add_comm]
        · exact absurd ((findDate_iff ..).mp h) (hn d)
  rw [e]

/-- A content type that a script has added counts as no content type though `header :mime :type` finds its type. -/
theorem added_type_not_counted (x : Ext F) (plain : Bool) (t : Str) (raw : List UInt8) (ct : CType)
    (h : x.parseContentType (x.utf8 (t ++ ['\n'])) = .contentType ct) :
    let f : Field := { parsed := .text t, raw := raw, added := true }
    FieldValue x plain f .type ct.main ∧ Adds x f .type 0 ∧ ¬ Adds x f .type 1 := by
  refine ⟨.type (.inr ⟨rfl, t, rfl, h⟩), .untyped (by simp) (by simp), ?_⟩
  rw [adds_iff]
  simp [headerCount]

/-- Two of the three parameters have one of the names; the field counts once for its type and not without a type. -/
example : Adds exExt ⟨.contentType ⟨['a'], none, some [(['p'], []), (['q'], ['1']), (['p'], ['2'])]⟩, false, []⟩ (.param [['p'], ['r']]) 2 ∧
    Adds exExt ⟨.contentType ⟨['a'], none, none⟩, false, []⟩ .subtype 1 ∧ Adds exExt ⟨.other, false, []⟩ .subtype 0 := by
  simp only [adds_iff]
  exact ⟨rfl, rfl, rfl⟩

/-- Each of the names counts, and a field with a name that is given twice counts twice. -/
example : summed exParts [0] [1, 2, 2] (fun hs n pos => (hs[pos]?.map (·.name)) == some n) (fun _ => 1) = 4 := by decide +kernel

/-- Of the addresses one has no domain. -/
example (x : Ext F) (h1 : x.part .domain ['a'] = none) (h2 : x.part .domain ['b'] = some ['c']) :
    AddsAddrs x .domain ⟨.addresses [⟨none, some ['a']⟩, ⟨none, some ['b']⟩, ⟨none, none⟩], false, []⟩ 1 := by
  rw [addsAddrs_iff]
  simp [addressValues, addrsOf, evalAddr, h1, h2]

end Sieve.Tests

namespace Sieve.Written

open Sieve.Args Sieve.Fields

variable {F N : Type}

/-- The option of `:mime` that is written. -/
inductive MimeAsked (env : Env F N) (g : Got F) : Tests.MimeOpts → Prop where
  | none : (∀ w ∈ [Word.Type, .Subtype, .ContentType, .Param], ¬ Uses g w) → MimeAsked env g .none
  | type : Uses g .Type → MimeAsked env g .type
  | subtype : Uses g .Subtype → MimeAsked env g .subtype
  | contentType : Uses g .ContentType → MimeAsked env g .contentType
  | param {vs} : (.Param, .vals vs) ∈ g.tags → MimeAsked env g (.param (vs.map fun v => Tests.text env.x.flt (env.eval v)))

theorem mimeAsked_iff {env : Env F N} {g : Got F} {o : Fields.MimeOpts F}
    (ho : Stores g [.Type, .Subtype, .ContentType, .Param] MimeMeans .none o) (q : Tests.MimeOpts) :
    MimeAsked env g q ↔ q = optsOf env o := by
  constructor
  · rintro (hn | ⟨_, ha⟩ | ⟨_, ha⟩ | ⟨_, ha⟩ | ha)
    · rw [ho.default hn]; rfl
    all_goals cases ho.given _ _ ha (by simp); rfl
  · rintro rfl
    rcases stored_used ho with ⟨w, -, a, ht, hm⟩ | ⟨hn, rfl⟩
    · cases hm with
      | type => exact .type ⟨_, ht⟩
      | subtype => exact .subtype ⟨_, ht⟩
      | contentType => exact .contentType ⟨_, ht⟩
      | param vs => exact .param ht
    · exact .none hn

/-- The names of header fields that are written; those that no field can have are left out. -/
def called (env : Env F N) (hs : List (Val F)) : List N :=
  hs.filterMap fun w => env.headerName (Tests.text env.x.flt (env.eval w))

/-- `chosen` says which of the fields of a part are looked at for a name, as `:index` and `:last` ask for. -/
def Chooses [DecidableEq N] (g : Got F) (chosen : List (Mime.Header N Tests.Field) → N → Nat → Bool) : Prop :=
  ∀ i, IndexIs g i → ∀ hs n pos, chosen hs n pos = true ↔ Mime.Selected hs i n pos

/-- C119: `header :count` compares the number of header fields or parameters that are asked for with the keys. -/
theorem header_counted_all [DecidableEq N] (y : Args.Ext F) (has : Cap → Bool) {e : Entry} (he : testEntry .Header = some e)
    {ts : List (Tok F)} {g : Got F} {r : List (Tok F)} (h : readEntry y has .Header e ts = some (g, r)) :
    ∃ i hs ks, Header.of g = some i ∧ g.pos = [.vals hs, .vals ks] ∧
      ∀ (env : Env F N) (t : Mime.Tree) (isNot : Bool) (cp fuel : Nat) (rel : Tests.Rel), env.x.Ok →
        Mime.Represents env.parts t → env.part = t.id → t.preorder.length < fuel → Counting g rel →
        ∀ chosen adds opts, Chooses g chosen → MimeAsked env g opts → (∀ f, Tests.Adds env.x f opts (adds f)) →
        ∃ b ids, PartsAre g t ids ∧ header env isNot cp fuel i = some ⟨.bool (b ^^ isNot), []⟩ ∧
          (b = true ↔ ∃ k ∈ ks, Tests.NumSat env.x.flt (.int (Tests.summed env.parts ids (called env hs) chosen adds : Nat))
            (Tests.number env.x (env.eval k)) rel) := by
  obtain ⟨i, hi, hp, hc, hx, ho, ha⟩ := header_fields_partial y has he h
  refine ⟨i, _, _, hi, hp, ?_⟩
  intro env t isNot cp fuel rel ok ht hpart hf hr chosen adds opts hch hask hadds
  obtain ⟨b, h1, h2⟩ := Tests.header_count_all ok env.plain isNot (comparatorOf i.comparator) rel opts env.parts t ht
    (i.headers.filterMap (nameOf env)) i.index i.anyChild fuel hf (i.keys.map env.eval) chosen (hch _ hx) adds hadds
  refine ⟨b, _, partsAre_of ha t, by
    unfold header
    rw [hpart, count_of hc hr, ← (mimeAsked_iff ho opts).mp hask]
    exact h1, h2.trans ?_⟩
  simp only [List.mem_map, exists_exists_and_eq_and]
  rfl

/-- C119: `address :count` compares the number of addresses of which the part that is asked for is there with the keys. -/
theorem address_counted [DecidableEq N] (y : Args.Ext F) (has : Cap → Bool) {e : Entry} (he : testEntry .Address = some e)
    {ts : List (Tok F)} {g : Got F} {r : List (Tok F)} (h : readEntry y has .Address e ts = some (g, r)) :
    ∃ i hs ks, Address.of g = some i ∧ g.pos = [.vals hs, .vals ks] ∧
      ∀ (env : Env F N) (t : Mime.Tree) (isNot : Bool) (cp fuel : Nat) (rel : Tests.Rel), env.x.Ok →
        Mime.Represents env.parts t → env.part = t.id → t.preorder.length < fuel → Counting g rel →
        ∀ chosen adds q, Chooses g chosen → Part g q → (∀ f, Tests.AddsAddrs env.x q f (adds f)) →
        ∃ b ids, PartsAre g t ids ∧ address env isNot cp fuel i = some ⟨.bool (b ^^ isNot), []⟩ ∧
          (b = true ↔ ∃ k ∈ ks, Tests.NumSat env.x.flt (.int (Tests.summed env.parts ids (called env hs) chosen adds : Nat))
            (Tests.number env.x (env.eval k)) rel) := by
  obtain ⟨i, hi, hp, hc, hq, hx, ha⟩ := address_fields y has he h
  refine ⟨i, _, _, hi, hp, ?_⟩
  intro env t isNot cp fuel rel ok ht hpart hf hr chosen adds q hch hask hadds
  obtain ⟨b, h1, h2⟩ := Tests.address_count ok isNot (comparatorOf i.comparator) rel q env.parts t ht
    (i.headers.filterMap (nameOf env)) i.index i.anyChild fuel hf (i.keys.map env.eval) chosen (hch _ hx) adds hadds
  refine ⟨b, _, partsAre_of ha t, by
    unfold address
    rw [hpart, count_of hc hr, ← (part_iff hq q).mp hask]
    exact h1, h2.trans ?_⟩
  simp only [List.mem_map, exists_exists_and_eq_and]
  rfl

/-- C119: `date :count` compares the number of header fields that are asked for and have a date with the keys. -/
theorem date_counted_all [DecidableEq N] (y : Args.Ext F) (has : Cap → Bool) {e : Entry} (he : testEntry .Date = some e)
    {ts : List (Tok F)} {g : Got F} {r : List (Tok F)} (h : readEntry y has .Date e ts = some (g, r)) :
    ∃ i w part ks, Date.of g = some i ∧ g.pos = [.val w, .text part, .vals ks] ∧
      ∀ (env : Env F N) (o : OtherEnv F) (t : Mime.Tree) (isNot : Bool) (cp fuel : Nat) (rel : Tests.Rel) (name : N), env.x.Ok →
        Mime.Represents env.parts t → env.part = t.id → t.preorder.length < fuel → Counting g rel →
        env.headerName (Tests.text env.x.flt (env.eval w)) = some name →
        ∀ chosen adds, Chooses g chosen →
        (∀ f, (∃ d, Tests.FieldDate env.x o.dates f d) ∧ adds f = 1 ∨ (∀ d, ¬ Tests.FieldDate env.x o.dates f d) ∧ adds f = 0) →
        ∃ b ids, PartsAre g t ids ∧ date env o isNot cp fuel i = some ⟨.bool (b ^^ isNot), []⟩ ∧
          (b = true ↔ ∃ k ∈ ks, Tests.NumSat env.x.flt (.int (Tests.summed env.parts ids [name] chosen adds : Nat))
            (Tests.number env.x (env.eval k)) rel) := by
  obtain ⟨i, part, hi, hp, ⟨n, hn, hl, hn'⟩, hc, hx, hz, ha⟩ := date_fields y has he h
  obtain ⟨dp, hdp⟩ := datePart_named hn
  refine ⟨i, _, _, _, hi, hp, ?_⟩
  intro env o t isNot cp fuel rel name ok ht hpart hf hr hname chosen adds hch hadds
  have hd : datePartOf i.part = some dp := (datePartOf_iff _ _).2 ⟨n, hdp, hn'⟩
  obtain ⟨b, h1, h2⟩ := Tests.date_count_all ok o.dates isNot (comparatorOf i.comparator) rel (zoneOf i.zone) dp env.parts t ht name
    i.index i.anyChild fuel hf (i.keys.map env.eval) chosen (hch _ hx) adds hadds
  refine ⟨b, _, partsAre_of ha t, by
    unfold date
    rw [hd, hpart, count_of hc hr, show nameOf env i.header = some name from hname]
    exact h1, h2.trans ?_⟩
  simp only [List.mem_map, exists_exists_and_eq_and]

/-- C119: `envelope :count` compares the number of envelope values with one of the names, of which the part that is asked for is
there and not empty, with the keys. -/
theorem envelope_counted (y : Args.Ext F) (has : Cap → Bool) {e : Entry} (he : testEntry .Envelope = some e)
    {ts : List (Tok F)} {g : Got F} {r : List (Tok F)} (h : readEntry y has .Envelope e ts = some (g, r)) :
    ∃ i ns ks, Envelope.of g = some i ∧ g.pos = [.texts ns, .vals ks] ∧
      ∀ (env : Env F N) (isNot : Bool) (cp : Nat) (rel : Tests.Rel), env.x.Ok → Counting g rel →
        ∀ names q z, (∀ n, n ∈ names ↔ ∃ w ∈ ns, ∃ t, FieldName t n ∧ lower w = bytes t) → Part g q → ZoneIs g z →
        ∃ n, (∀ m, Tests.EnvelopeCounted env.x q (z.map env.shift) names env.envelope m ↔ m = n) ∧
          ∃ b, envelope env isNot cp i = ⟨.bool (b ^^ isNot), []⟩ ∧
            (b = true ↔ ∃ k ∈ ks, Tests.NumSat env.x.flt (.int (n : Nat)) (Tests.number env.x (env.eval k)) rel) := by
  obtain ⟨i, ns, hi, hp, hfst, hc, hq, hz⟩ := envelope_fields y has he h
  refine ⟨i, ns, _, hi, hp, ?_⟩
  intro env isNot cp rel ok hr names q z hn hpq hzi
  obtain rfl := (part_iff hq q).1 hpq
  obtain rfl := (zone_iff hz z).1 hzi
  obtain ⟨n, h1, b, h2, h3⟩ := Tests.envelope_count ok isNot (comparatorOf i.comparator) rel (partOf i.part) (i.zone.map env.shift)
    (i.fields.filterMap fieldOf) env.envelope (i.keys.map env.eval)
  refine ⟨n, fun m => ?_, b, by unfold envelope; rw [count_of hc hr]; exact h2, h3.trans ?_⟩
  · rw [← h1, Tests.envelopeCounted_iff, Tests.envelopeCounted_iff]
    have : (fun f : Tests.EnvName × Expr.Val F => names.contains f.1) = fun f => (i.fields.filterMap fieldOf).contains f.1 := by
      funext f
      rw [Bool.eq_iff_iff, List.contains_iff_mem, List.contains_iff_mem, hn, List.mem_filterMap]
      constructor
      · rintro ⟨w, h5, h6⟩
        exact ⟨lower w, (firstOnce_mem hfst _).2 ⟨w, h5, rfl⟩, (fieldOf_iff _ _).2 h6⟩
      · rintro ⟨s, h3, h4⟩
        obtain ⟨w, h5, rfl⟩ := (firstOnce_mem hfst s).1 h3
        exact ⟨w, h5, (fieldOf_iff _ _).1 h4⟩
    rw [this]
  · simp only [List.mem_map, exists_exists_and_eq_and]

/-- C119: `servermetadata :count`. -/
theorem servermetadata_counted (y : Args.Ext F) (has : Cap → Bool) {e : Entry} (he : testEntry .ServerMetadata = some e)
    {ts : List (Tok F)} {g : Got F} {r : List (Tok F)} (h : readEntry y has .ServerMetadata e ts = some (g, r)) :
    ∃ i an ks, OneName.of g = some i ∧ g.pos = [.val an, .vals ks] ∧
      ∀ (env : Env F N) (o : OtherEnv F) (isNot : Bool) (cp : Nat) (rel : Tests.Rel), env.x.Ok → Counting g rel →
        ∃ b, servermetadata env o isNot cp i = ⟨.bool (b ^^ isNot), []⟩ ∧
          (b = true ↔ (∃ v, Tests.Stored env.x o.stored (.server (Tests.text env.x.flt (env.eval an))) v) ∧
            ∃ k ∈ ks, Tests.NumSat env.x.flt (.flt o.one) (Tests.number env.x (env.eval k)) rel) := by
  obtain ⟨i, hi, hp, hc⟩ := servermetadata_fields y has he h
  refine ⟨i, _, _, hi, hp, ?_⟩
  intro env o isNot cp rel ok hr
  obtain ⟨b, h1, h2⟩ := Tests.metadata_count ok o.one o.stored (.server (Tests.text env.x.flt (env.eval i.name)))
    (comparatorOf i.comparator) rel (i.keys.map env.eval) isNot
  refine ⟨b, by unfold servermetadata; rw [count_of hc hr]; exact h1, h2.trans ?_⟩
  simp only [List.mem_map, exists_exists_and_eq_and]

/-- `envelope :count "eq" ["from", "To"] "2"` -/
example : resultOf .Envelope [.tag .Count, .string (bytes "eq"), .bracketOpen, .string (bytes "from"), .comma, .string (bytes "To"),
      .bracketClose, .string (bytes "2")] Envelope.of (fun i => some (envelope exEnv false 0 i)) = some ⟨.bool true, []⟩ := by
  decide +kernel

/-- `header :count "eq" :index 1 :last ["X", "Y"] "2"` -/
example : resultOf .Header [.tag .Count, .string (bytes "eq"), .tag .Index, .number 1, .tag .Last, .bracketOpen, .string (bytes "X"),
      .comma, .string (bytes "Y"), .bracketClose, .string (bytes "2")] Header.of (header exEnv false 0 3) = some ⟨.bool true, []⟩ := by
  decide +kernel

end Sieve.Written
