import Verif.FieldsProps
import Verif.OtherTestsProps
import Verif.WrittenModel

/-!
# Tests as they are written: from the arguments in the script to the result

The result of a test in terms of the tags and arguments that are written in the script (RFC 5228, 2.7 and 5; RFC 5232;
RFC 5260; RFC 5703), not of the fields of the instruction.
-/

namespace Sieve.Written

open Sieve.Args Sieve.Fields

variable {F N : Type}

/-! ## The comparison that is written -/

/-- The tags that say how values are compared. -/
def matchTags : List Word := [.Is, .Contains, .Matches, .Value, .Count, .Regex, .List]

/-- The comparison `w` is written; without any tag it is `:is`. -/
def Written (g : Got F) (w : Word) : Prop := Uses g w ∨ w = .Is ∧ ∀ t ∈ matchTags, ¬ Uses g t

/-- The relation of RFC 5231 that is called `n`. -/
inductive RelName : String → Tests.Rel → Prop where
  | gt : RelName "gt" .gt
  | ge : RelName "ge" .ge
  | lt : RelName "lt" .lt
  | le : RelName "le" .le
  | eq : RelName "eq" .eq
  | ne : RelName "ne" .ne

/-- `:comparator "n"` is written. -/
def Named (g : Got F) (n : String) : Prop := (.Comparator, .text (bytes n)) ∈ g.tags

/-- Neither `i;octet` nor `i;ascii-numeric`: texts are compared without regard to case. -/
def Folding (g : Got F) : Prop := ¬ Named g "i;octet" ∧ ¬ Named g "i;ascii-numeric"

/-- `i;ascii-casemap`, the default. -/
def Default (g : Got F) : Prop := Named g "i;ascii-casemap" ∨ ¬ Uses g .Comparator

/-- A value and a key are related as the tags say. -/
inductive Meets (x : Tests.Ext F) (g : Got F) (v k : Tests.Item F) : Prop where
  | isOctet : Written g .Is → Named g "i;octet" → v.str x = k.str x → Meets x g v k
  | isNumber : Written g .Is → Named g "i;ascii-numeric" → Tests.NumSat x.flt (v.number x) (k.number x) .eq → Meets x g v k
  | isText : Written g .Is → Folding g → x.cm.strLower (v.str x) = x.cm.strLower (k.str x) → Meets x g v k
  | containsOctet : Written g .Contains → Named g "i;octet" → k.str x <:+: v.str x → Meets x g v k
  | containsText : Written g .Contains → ¬ Named g "i;octet" → x.cm.strLower (k.str x) <:+: x.cm.strLower (v.str x) →
      Meets x g v k
  | valueOctet {n r} : (.Value, .text (bytes n)) ∈ g.tags → RelName n r → Named g "i;octet" →
      Tests.StrSat (v.str x) (k.str x) r → Meets x g v k
  | valueNumber {n r} : (.Value, .text (bytes n)) ∈ g.tags → RelName n r → Named g "i;ascii-numeric" →
      Tests.NumSat x.flt (v.number x) (k.number x) r → Meets x g v k
  | valueText {n r} : (.Value, .text (bytes n)) ∈ g.tags → RelName n r → Folding g →
      Tests.StrSat (x.cm.strLower (v.str x)) (x.cm.strLower (k.str x)) r → Meets x g v k
  | globText {ts} : Written g .Matches → Default g →
      Glob.MatchesWith (Glob.folded x.cm) (k.str x) (x.cm.strLower (v.str x)) ts → Meets x g v k
  | globExact {ts} : Written g .Matches → ¬ Default g → Glob.MatchesWith Glob.exactly (k.str x) (v.str x) ts → Meets x g v k
  | regex : Written g .Regex → x.isMatch (k.str x) (v.str x) = true → Meets x g v k

/-! ### What is written is what is stored -/

theorem stores_unique {α : Type} {g : Got F} {words : List Word} {means : Word → Arg F → α → Prop} {d a b : α}
    (hf : ∀ w r a b, means w r a → means w r b → a = b) (ha : Stores g words means d a) (hb : Stores g words means d b) :
    a = b := by
  by_cases h : ∀ w ∈ words, ¬ Uses g w
  · rw [ha.default h, hb.default h]
  · push_neg at h
    obtain ⟨w, hw, r, hr⟩ := h
    exact hf w r a b (ha.given w r hr hw) (hb.given w r hr hw)

theorem stored_used {α : Type} {g : Got F} {words : List Word} {means : Word → Arg F → α → Prop} {d b : α}
    (h : Stores g words means d b) : (∃ w ∈ words, ∃ a, (w, a) ∈ g.tags ∧ means w a b) ∨ (∀ w ∈ words, ¬ Uses g w) ∧ b = d := by
  by_cases hn : ∀ w ∈ words, ¬ Uses g w
  · exact .inr ⟨hn, h.default hn⟩
  · push_neg at hn
    obtain ⟨w, hw, a, ha⟩ := hn
    exact .inl ⟨w, hw, a, ha, h.given w a ha hw⟩

section
variable {g : Got F} {m : MatchType} {c : Fields.Comparator}

theorem written_iff (h : Compares g m c) {w : Word} (hw : w ∈ matchTags) (hv : w ≠ .Value) (hc : w ≠ .Count) :
    Written g w ↔ (∃ a : Arg F, MatchMeans w a m) := by
  constructor
  · rintro (⟨a, ha⟩ | ⟨rfl, hn⟩)
    · exact ⟨a, h.matchType.given w a ha hw⟩
    · rw [h.matchType.default hn]; exact ⟨_, .is⟩
  · rintro ⟨a, ha⟩
    rcases stored_used h.matchType with ⟨w', hw', a', ht, hm⟩ | ⟨hn, rfl⟩
    · cases ha <;> cases hm <;> first | exact .inl ⟨_, ht⟩ | exact absurd rfl hv | exact absurd rfl hc
    · cases ha
      exact .inr ⟨rfl, hn⟩

theorem value_means {a : Arg F} {s : List UInt8} (h : MatchMeans .Value a m) (ha : a = .text s) :
    ∃ n r, (n, r) ∈ relNames ∧ bytes n = s ∧ m = .value r := by
  cases h with
  | value hn =>
    injection ha with ha
    exact ⟨_, _, hn, ha, rfl⟩

theorem rel_name {n n' : String} {r : Tests.Rel} {r' : Fields.Rel} (h : RelName n r) (h' : (n', r') ∈ relNames)
    (e : bytes n' = bytes n) : r = relOf r' := by
  simp only [relNames, List.mem_cons, Prod.mk.injEq, List.not_mem_nil, or_false] at h'
  rcases h' with ⟨rfl, rfl⟩ | ⟨rfl, rfl⟩ | ⟨rfl, rfl⟩ | ⟨rfl, rfl⟩ | ⟨rfl, rfl⟩ | ⟨rfl, rfl⟩ <;> cases h <;>
    first | rfl | (exfalso; revert e; decide +kernel)

theorem rel_named {n' : String} {r' : Fields.Rel} (h' : (n', r') ∈ relNames) : RelName n' (relOf r') := by
  simp only [relNames, List.mem_cons, Prod.mk.injEq, List.not_mem_nil, or_false] at h'
  rcases h' with ⟨rfl, rfl⟩ | ⟨rfl, rfl⟩ | ⟨rfl, rfl⟩ | ⟨rfl, rfl⟩ | ⟨rfl, rfl⟩ | ⟨rfl, rfl⟩ <;> constructor

theorem value_iff (h : Compares g m c) (P : Tests.Rel → Prop) :
    (∃ n r, (.Value, .text (bytes n)) ∈ g.tags ∧ RelName n r ∧ P r) ↔ ∃ r, m = .value r ∧ P (relOf r) := by
  constructor
  · rintro ⟨n, r, ht, hr, hp⟩
    obtain ⟨n', r', h1, h2, h3⟩ := value_means (h.matchType.given _ _ ht (by simp)) rfl
    rw [rel_name hr h1 h2] at hp
    exact ⟨r', h3, hp⟩
  · rintro ⟨r, rfl, hp⟩
    rcases stored_used h.matchType with ⟨w, -, a, ht, hm⟩ | ⟨-, hd⟩
    · cases hm with
      | value hn => exact ⟨_, _, ht, rel_named hn, hp⟩
    · cases hd

theorem named_iff (h : Compares g m c) {n : String} {c' : Fields.Comparator} (hc : (n, c') ∈ comparatorNames)
    (hd : c' ≠ .asciiCaseMap) : Named g n ↔ c = c' := by
  have key : ∀ {n n' : String} {c1 c2 : Fields.Comparator}, (n, c1) ∈ comparatorNames → (n', c2) ∈ comparatorNames →
      bytes n' = bytes n → c2 = c1 := by
    intro n n' c1 c2 h1 h2 e
    simp only [comparatorNames, List.mem_cons, Prod.mk.injEq, List.not_mem_nil, or_false] at h1 h2
    rcases h1 with ⟨rfl, rfl⟩ | ⟨rfl, rfl⟩ | ⟨rfl, rfl⟩ <;> rcases h2 with ⟨rfl, rfl⟩ | ⟨rfl, rfl⟩ | ⟨rfl, rfl⟩ <;>
      first | rfl | (exfalso; revert e; decide +kernel)
  constructor
  · intro ht
    have := h.comparator.given _ _ ht (by simp)
    generalize ha : (.text (bytes n) : Arg F) = a at this
    cases this with
    | known hn =>
      injection ha with ha
      exact key hc hn ha.symm
    | other ho =>
      injection ha with ha
      exact absurd ha.symm (ho _ hc)
  · rintro rfl
    rcases stored_used h.comparator with ⟨w, -, a, ht, hm⟩ | ⟨-, hd'⟩
    · cases hm with
      | @known n' _ hn =>
        have : n' = n := by
          simp only [comparatorNames, List.mem_cons, Prod.mk.injEq, List.not_mem_nil, or_false] at hc hn
          rcases hc with ⟨rfl, rfl⟩ | ⟨rfl, rfl⟩ | ⟨rfl, rfl⟩ <;> rcases hn with ⟨rfl, h⟩ | ⟨rfl, h⟩ | ⟨rfl, h⟩ <;>
            first | rfl | cases h
        subst this
        exact ht
      | other => simp [comparatorNames] at hc
    · exact absurd hd' hd

theorem default_iff (h : Compares g m c) : Default g ↔ c = .asciiCaseMap := by
  constructor
  · rintro (ht | hn)
    · have := h.comparator.given _ _ ht (by simp)
      generalize ha : (.text (bytes "i;ascii-casemap") : Arg F) = a at this
      cases this with
      | known hn =>
        injection ha with ha
        simp only [comparatorNames, List.mem_cons, Prod.mk.injEq, List.not_mem_nil, or_false] at hn
        rcases hn with ⟨rfl, rfl⟩ | ⟨rfl, rfl⟩ | ⟨rfl, rfl⟩
        · exfalso; revert ha; decide +kernel
        · rfl
        · exfalso; revert ha; decide +kernel
      | other ho =>
        injection ha with ha
        exact absurd ha.symm (ho ("i;ascii-casemap", .asciiCaseMap) (by simp [comparatorNames]))
    · exact h.comparator.default (by simpa using hn)
  · rintro rfl
    rcases stored_used h.comparator with ⟨w, -, a, ht, hm⟩ | ⟨hn, -⟩
    · cases hm with
      | known hn =>
        simp only [comparatorNames, List.mem_cons, Prod.mk.injEq, List.not_mem_nil, or_false] at hn
        rcases hn with ⟨rfl, h⟩ | ⟨rfl, -⟩ | ⟨rfl, h⟩
        · cases h
        · exact .inl ht
        · cases h
    · exact .inr (by simpa using hn)

/-- The comparison that is executed is the one that is written. -/
theorem meets_iff (h : Compares g m c) (x : Tests.Ext F) (cp : Nat) (v k : Tests.Item F) :
    Tests.Holds x (comparatorOf c) (matchOf cp m) v k ↔ Meets x g v k := by
  have ho : Named g "i;octet" ↔ c = .octet := named_iff h (by simp [comparatorNames]) (by simp)
  have hn : Named g "i;ascii-numeric" ↔ c = .asciiNumeric := named_iff h (by simp [comparatorNames]) (by simp)
  have hd := default_iff h
  have hf : Folding g ↔ c ≠ .octet ∧ c ≠ .asciiNumeric := by unfold Folding; rw [ho, hn]
  have h1 : Written g .Is ↔ m = .is := by
    rw [written_iff h (by simp [matchTags]) (by simp) (by simp)]
    exact ⟨fun ⟨a, h⟩ => by cases h; rfl, fun e => by subst e; exact ⟨_, .is⟩⟩
  have h2 : Written g .Contains ↔ m = .contains := by
    rw [written_iff h (by simp [matchTags]) (by simp) (by simp)]
    exact ⟨fun ⟨a, h⟩ => by cases h; rfl, fun e => by subst e; exact ⟨_, .contains⟩⟩
  have h3 : Written g .Matches ↔ m = .glob := by
    rw [written_iff h (by simp [matchTags]) (by simp) (by simp)]
    exact ⟨fun ⟨a, h⟩ => by cases h; rfl, fun e => by subst e; exact ⟨_, .glob⟩⟩
  have h4 : Written g .Regex ↔ m = .regex := by
    rw [written_iff h (by simp [matchTags]) (by simp) (by simp)]
    exact ⟨fun ⟨a, h⟩ => by cases h; rfl, fun e => by subst e; exact ⟨_, .regex⟩⟩
  constructor
  · intro hh
    cases m with
    | is =>
      have w := h1.2 rfl
      cases c with
      | octet => exact .isOctet w (ho.2 rfl) hh
      | asciiNumeric => exact .isNumber w (hn.2 rfl) hh
      | asciiCaseMap => exact .isText w (hf.2 (by simp)) hh
      | other => exact .isText w (hf.2 (by simp)) hh
    | contains =>
      have w := h2.2 rfl
      cases c with
      | octet => exact .containsOctet w (ho.2 rfl) hh
      | asciiNumeric => exact .containsText w (by rw [ho]; simp) hh
      | asciiCaseMap => exact .containsText w (by rw [ho]; simp) hh
      | other => exact .containsText w (by rw [ho]; simp) hh
    | glob =>
      have w := h3.2 rfl
      cases c with
      | octet => obtain ⟨ts, hh⟩ := hh; exact .globExact w (by rw [hd]; simp) hh
      | asciiNumeric => obtain ⟨ts, hh⟩ := hh; exact .globExact w (by rw [hd]; simp) hh
      | asciiCaseMap => obtain ⟨ts, hh⟩ := hh; exact .globText w (hd.2 rfl) hh
      | other => obtain ⟨ts, hh⟩ := hh; exact .globExact w (by rw [hd]; simp) hh
    | regex => exact .regex (h4.2 rfl) hh
    | list => cases c <;> exact hh.elim
    | count r => cases c <;> exact hh.elim
    | value r =>
      obtain ⟨n, r', ht, hr, rfl⟩ := (value_iff h (· = relOf r)).2 ⟨r, rfl, rfl⟩
      cases c with
      | octet => exact .valueOctet ht hr (ho.2 rfl) hh
      | asciiNumeric => exact .valueNumber ht hr (hn.2 rfl) hh
      | asciiCaseMap => exact .valueText ht hr (hf.2 (by simp)) hh
      | other => exact .valueText ht hr (hf.2 (by simp)) hh
  · intro hh
    cases hh with
    | isOctet w o e => rw [h1.1 w, ho.1 o]; exact e
    | isNumber w o e => rw [h1.1 w, hn.1 o]; exact e
    | isText w o e =>
      obtain ⟨o1, o2⟩ := hf.1 o
      rw [h1.1 w]
      cases c <;> first | exact e | exact absurd rfl o1 | exact absurd rfl o2
    | containsOctet w o e => rw [h2.1 w, ho.1 o]; exact e
    | containsText w o e =>
      rw [h2.1 w]
      cases c <;> first | exact e | exact absurd (ho.2 rfl) o
    | valueOctet ht hr o e =>
      obtain ⟨r, rfl, e⟩ := (value_iff h (fun r => Tests.StrSat (v.str x) (k.str x) r)).1 ⟨_, _, ht, hr, e⟩
      rw [ho.1 o]; exact e
    | valueNumber ht hr o e =>
      obtain ⟨r, rfl, e⟩ := (value_iff h (fun r => Tests.NumSat x.flt (v.number x) (k.number x) r)).1 ⟨_, _, ht, hr, e⟩
      rw [hn.1 o]; exact e
    | valueText ht hr o e =>
      obtain ⟨r, rfl, e⟩ :=
        (value_iff h (fun r => Tests.StrSat (x.cm.strLower (v.str x)) (x.cm.strLower (k.str x)) r)).1 ⟨_, _, ht, hr, e⟩
      obtain ⟨o1, o2⟩ := hf.1 o
      cases c <;> first | exact e | exact absurd rfl o1 | exact absurd rfl o2
    | globText w o e => rw [h3.1 w, hd.1 o]; exact ⟨_, e⟩
    | globExact w o e =>
      rw [h3.1 w]
      cases c <;> first | exact ⟨_, e⟩ | exact absurd (hd.2 rfl) o
    | regex w e => rw [h4.1 w]; exact e

/-- Neither `:count` nor `:list` is written. -/
def Comparing (g : Got F) : Prop := ¬ Uses g .Count ∧ ¬ Uses g .List

theorem comparing_of (h : Compares g m c) (hg : Comparing g) (cp : Nat) : (matchOf cp m).comparing := by
  rcases stored_used h.matchType with ⟨w, -, a, ht, hm⟩ | ⟨-, rfl⟩
  · cases hm <;> first | trivial | exact (hg.1 ⟨_, ht⟩).elim | exact (hg.2 ⟨_, ht⟩).elim
  · trivial

/-- Lower-casing `v` as a whole is lower-casing its characters (see `Tests.Charwise`). -/
def Letterwise (x : Tests.Ext F) (v : Tests.Str) : Prop :=
  x.cm.strLower v = v.flatMap fun ch => if x.cm.isUpper ch = true then x.cm.lower ch else [ch]

theorem charwise_of {x : Tests.Ext F} {v : Tests.Str} {cp : Nat} (h : cp ≠ 0 → Letterwise x v) (c : Tests.Comparator)
    (m : MatchType) : Tests.Charwise x c (matchOf cp m) v := by
  intro cp' hm h0 _
  cases m <;> first | (injection hm with hm; subst hm; exact h h0) | cases hm

end

/-! ## The header fields that are looked at -/

/-- The current part, with `:anychild` also those inside it. -/
def Searched (g : Got F) (t : Mime.Tree) (id : Nat) : Prop := id = t.id ∨ Uses g .AnyChild ∧ id ∈ t.preorder

/-- A header field that a test is about: it is in a part that is searched, its name is that of one of the arguments, and it
is the occurrence that `:index` and `:last` ask for. -/
def Seen [DecidableEq N] (env : Env F N) (g : Got F) (t : Mime.Tree) (hs : List (Val F)) (hd : Mime.Header N Tests.Field) :
    Prop :=
  ∃ id, Searched g t id ∧ ∃ p, env.parts[id]? = some p ∧
    ∃ w ∈ hs, ∃ name, env.headerName (Tests.text env.x.flt (env.eval w)) = some name ∧
      ∃ index, IndexIs g index ∧ ∃ pos, p.headers[pos]? = some hd ∧ Mime.Selected p.headers index name pos

/-- The values of a header field: as `:type`, `:subtype`, `:contenttype` or `:param` ask for, or its text. -/
inductive Reads (env : Env F N) (g : Got F) (hd : Mime.Header N Tests.Field) (v : Tests.Str) : Prop where
  | text : (∀ w ∈ [Word.Type, .Subtype, .ContentType, .Param], ¬ Uses g w) →
      Tests.FieldValue env.x (env.plain hd.name) hd.value .none v → Reads env g hd v
  | type : Uses g .Type → Tests.FieldValue env.x (env.plain hd.name) hd.value .type v → Reads env g hd v
  | subtype : Uses g .Subtype → Tests.FieldValue env.x (env.plain hd.name) hd.value .subtype v → Reads env g hd v
  | contentType : Uses g .ContentType → Tests.FieldValue env.x (env.plain hd.name) hd.value .contentType v → Reads env g hd v
  | param {vs} : (.Param, .vals vs) ∈ g.tags → Tests.FieldValue env.x (env.plain hd.name) hd.value
      (.param (vs.map fun v => Tests.text env.x.flt (env.eval v))) v → Reads env g hd v

/-- The part of an address that is asked for. -/
inductive Part (g : Got F) : Tests.AddrPart → Prop where
  | default : (∀ w ∈ [Word.LocalPart, .Domain, .All, .User, .Detail, .Name], ¬ Uses g w) → Part g .all
  | all : Uses g .All → Part g .all
  | localPart : Uses g .LocalPart → Part g .localPart
  | domain : Uses g .Domain → Part g .domain
  | user : Uses g .User → Part g .user
  | detail : Uses g .Detail → Part g .detail
  | name : Uses g .Name → Part g .name

theorem index_unique {g : Got F} {i j : Option Int} (hi : IndexIs g i) (hj : IndexIs g j) : i = j := by
  by_cases h : Uses g .Index
  · obtain ⟨a, ha⟩ := h
    obtain ⟨n, hn, h1, h2⟩ := hi.given a ha
    obtain ⟨n', hn', h1', h2'⟩ := hj.given a ha
    rw [hn] at hn'
    injection hn' with e
    subst e
    by_cases hl : Uses g .Last
    · rw [h1 hl, h1' hl]
    · rw [h2 hl, h2' hl]
  · rw [hi.default h, hj.default h]

theorem flag_iff {g : Got F} {w : Word} {b : Bool} (h : Stores g [w] Flag false b) : b = true ↔ Uses g w := by
  constructor
  · rintro rfl
    by_contra hn
    have := h.default (by simpa using hn)
    cases this
  · rintro ⟨a, ha⟩
    exact (h.given w a ha (by simp)).2

theorem searched_iff {g : Got F} {b : Bool} (h : Stores g [.AnyChild] Flag false b) (t : Mime.Tree) (id : Nat) :
    id ∈ Tests.searched b t ↔ Searched g t id := by
  unfold Tests.searched Searched
  rw [← flag_iff h]
  cases b
  · simp
  · simp only [if_true, true_and]
    constructor
    · exact .inr
    · rintro (rfl | h)
      · cases t; simp [Mime.Tree.preorder, Mime.Tree.id]
      · exact h

theorem looked_iff [DecidableEq N] {env : Env F N} {g : Got F} {b : Bool} {index : Option Int}
    (hb : Stores g [.AnyChild] Flag false b) (hi : IndexIs g index) (t : Mime.Tree) (hs : List (Val F))
    (hd : Mime.Header N Tests.Field) :
    Tests.Looked env.parts (Tests.searched b t) (hs.filterMap (nameOf env)) index hd ↔ Seen env g t hs hd := by
  unfold Tests.Looked Seen
  constructor
  · rintro ⟨id, h1, p, h2, name, h3, pos, h4, h5⟩
    obtain ⟨w, h6, h7⟩ := List.mem_filterMap.1 h3
    exact ⟨id, (searched_iff hb t id).1 h1, p, h2, w, h6, name, h7, index, hi, pos, h4, h5⟩
  · rintro ⟨id, h1, p, h2, w, h6, name, h7, index', hi', pos, h4, h5⟩
    rw [index_unique hi' hi] at h5
    exact ⟨id, (searched_iff hb t id).2 h1, p, h2, name, List.mem_filterMap.2 ⟨w, h6, h7⟩, pos, h4, h5⟩

theorem reads_iff {env : Env F N} {g : Got F} {o : Fields.MimeOpts F}
    (ho : Stores g [.Type, .Subtype, .ContentType, .Param] MimeMeans .none o) (hd : Mime.Header N Tests.Field) (v : Tests.Str) :
    Tests.FieldValue env.x (env.plain hd.name) hd.value (optsOf env o) v ↔ Reads env g hd v := by
  constructor
  · intro h
    rcases stored_used ho with ⟨w, -, a, ht, hm⟩ | ⟨hn, rfl⟩
    · cases hm with
      | type => exact .type ⟨_, ht⟩ h
      | subtype => exact .subtype ⟨_, ht⟩ h
      | contentType => exact .contentType ⟨_, ht⟩ h
      | param vs => exact .param ht h
    · exact .text hn h
  · rintro (⟨hn, h⟩ | ⟨⟨a, ha⟩, h⟩ | ⟨⟨a, ha⟩, h⟩ | ⟨⟨a, ha⟩, h⟩ | ⟨ha, h⟩)
    · rw [ho.default hn]; exact h
    · cases ho.given _ _ ha (by simp); exact h
    · cases ho.given _ _ ha (by simp); exact h
    · cases ho.given _ _ ha (by simp); exact h
    · cases ho.given _ _ ha (by simp); exact h

theorem part_iff {g : Got F} {q : AddressPart}
    (hq : Stores g [.LocalPart, .Domain, .All, .User, .Detail, .Name] PartMeans .all q) (a : Tests.AddrPart) :
    Part g a ↔ a = partOf q := by
  constructor
  · rintro (hn | ⟨_, ha⟩ | ⟨_, ha⟩ | ⟨_, ha⟩ | ⟨_, ha⟩ | ⟨_, ha⟩ | ⟨_, ha⟩)
    · rw [hq.default hn]; rfl
    all_goals cases hq.given _ _ ha (by simp); rfl
  · rintro rfl
    rcases stored_used hq with ⟨w, -, a, ht, hm⟩ | ⟨hn, rfl⟩
    · cases hm with
      | localPart => exact .localPart ⟨_, ht⟩
      | domain => exact .domain ⟨_, ht⟩
      | all => exact .all ⟨_, ht⟩
      | user => exact .user ⟨_, ht⟩
      | detail => exact .detail ⟨_, ht⟩
      | name => exact .name ⟨_, ht⟩
    · exact .default hn

/-! ## C118 -/

/-- C118: a `header` test that is written with the arguments `g` is true exactly if a value of a header field it is about
meets one of its keys. -/
theorem header_written [DecidableEq N] (y : Args.Ext F) (has : Cap → Bool) {e : Entry} (he : testEntry .Header = some e)
    {ts : List (Tok F)} {g : Got F} {r : List (Tok F)} (h : readEntry y has .Header e ts = some (g, r)) :
    ∃ i hs ks, Header.of g = some i ∧ g.pos = [.vals hs, .vals ks] ∧
      ∀ (env : Env F N) (t : Mime.Tree) (isNot : Bool) (cp fuel : Nat), env.x.Ok → Mime.Represents env.parts t →
        env.part = t.id → t.preorder.length < fuel → Comparing g →
        (cp ≠ 0 → ∀ hd v, Seen env g t hs hd → Reads env g hd v → Letterwise env.x v) →
        ∃ b caps, header env isNot cp fuel i = some ⟨.bool (b ^^ isNot), caps⟩ ∧
          (b = true ↔ ∃ hd, Seen env g t hs hd ∧ ∃ v, Reads env g hd v ∧
            ∃ k ∈ ks, Meets env.x g (.text v) (.val (env.eval k))) := by
  obtain ⟨i, hi, hp, hc, hx, ho, ha⟩ := header_fields_partial y has he h
  refine ⟨i, _, _, hi, hp, ?_⟩
  intro env t isNot cp fuel ok ht hpart hf hg hl
  obtain ⟨b, caps, h1, h2⟩ := Tests.header_test ok env.plain isNot (comparatorOf i.comparator) (matchOf cp i.matchType)
    (comparing_of hc hg cp) (optsOf env i.mimeOpts) env.parts t ht (i.headers.filterMap (nameOf env)) i.index i.anyChild fuel hf
    (i.keys.map env.eval) (fun hd v h1 h2 => charwise_of
      (fun h0 => hl h0 hd v ((looked_iff ha hx t i.headers hd).1 h1) ((reads_iff ho hd v).1 h2)) _ _)
  refine ⟨b, caps, by unfold header; rw [hpart]; exact h1, h2.trans ?_⟩
  constructor
  · rintro ⟨hd, v, h3, h4, k, h5, h6⟩
    obtain ⟨k, h7, rfl⟩ := List.mem_map.1 h5
    exact ⟨hd, (looked_iff ha hx t i.headers hd).1 h3, v, (reads_iff ho hd v).1 h4, k, h7, (meets_iff hc _ _ _ _).1 h6⟩
  · rintro ⟨hd, h3, v, h4, k, h5, h6⟩
    exact ⟨hd, v, (looked_iff ha hx t i.headers hd).2 h3, (reads_iff ho hd v).2 h4, _, List.mem_map_of_mem h5,
      (meets_iff hc _ _ _ _).2 h6⟩

/-- C118: `address`. -/
theorem address_written [DecidableEq N] (y : Args.Ext F) (has : Cap → Bool) {e : Entry} (he : testEntry .Address = some e)
    {ts : List (Tok F)} {g : Got F} {r : List (Tok F)} (h : readEntry y has .Address e ts = some (g, r)) :
    ∃ i hs ks, Address.of g = some i ∧ g.pos = [.vals hs, .vals ks] ∧
      ∀ (env : Env F N) (t : Mime.Tree) (isNot : Bool) (cp fuel : Nat), env.x.Ok → Mime.Represents env.parts t →
        env.part = t.id → t.preorder.length < fuel → Comparing g →
        (cp ≠ 0 → ∀ hd q v, Seen env g t hs hd → Part g q → Tests.AddressValue env.x q hd.value v → Letterwise env.x v) →
        ∃ b caps, address env isNot cp fuel i = some ⟨.bool (b ^^ isNot), caps⟩ ∧
          (b = true ↔ ∃ hd, Seen env g t hs hd ∧ ∃ q v, Part g q ∧ Tests.AddressValue env.x q hd.value v ∧
            ∃ k ∈ ks, Meets env.x g (.text v) (.val (env.eval k))) := by
  obtain ⟨i, hi, hp, hc, hq, hx, ha⟩ := address_fields y has he h
  refine ⟨i, _, _, hi, hp, ?_⟩
  intro env t isNot cp fuel ok ht hpart hf hg hl
  have hpq := (part_iff hq _).2 rfl
  obtain ⟨b, caps, h1, h2⟩ := Tests.address_test ok isNot (comparatorOf i.comparator) (matchOf cp i.matchType)
    (comparing_of hc hg cp) (partOf i.part) env.parts t ht (i.headers.filterMap (nameOf env)) i.index i.anyChild fuel hf
    (i.keys.map env.eval) (fun hd v h1 h2 => charwise_of
      (fun h0 => hl h0 hd _ v ((looked_iff ha hx t i.headers hd).1 h1) hpq h2) _ _)
  refine ⟨b, caps, by unfold address; rw [hpart]; exact h1, h2.trans ?_⟩
  constructor
  · rintro ⟨hd, v, h3, h4, k, h5, h6⟩
    obtain ⟨k, h7, rfl⟩ := List.mem_map.1 h5
    exact ⟨hd, (looked_iff ha hx t i.headers hd).1 h3, _, v, hpq, h4, k, h7, (meets_iff hc _ _ _ _).1 h6⟩
  · rintro ⟨hd, h3, q, v, h8, h4, k, h5, h6⟩
    obtain rfl := (part_iff hq q).1 h8
    exact ⟨hd, v, (looked_iff ha hx t i.headers hd).2 h3, h4, _, List.mem_map_of_mem h5, (meets_iff hc _ _ _ _).2 h6⟩

/-- C118: `exists`; names that no header field can have are ignored (see `Tests.exists_invalid_name`). -/
theorem exists_written [DecidableEq N] (y : Args.Ext F) (has : Cap → Bool) {e : Entry} (he : testEntry .Exists = some e)
    {ts : List (Tok F)} {g : Got F} {r : List (Tok F)} (h : readEntry y has .Exists e ts = some (g, r)) :
    ∃ i hs, Exists.of g = some i ∧ g.pos = [.vals hs] ∧
      ∀ (env : Env F N) (t : Mime.Tree) (isNot : Bool) (fuel : Nat), Mime.Represents env.parts t → env.part = t.id →
        t.preorder.length < fuel →
        ∃ b, «exists» env isNot fuel i = some (b ^^ isNot) ∧
          (b = true ↔ ∀ w ∈ hs, ∀ name, env.headerName (Tests.text env.x.flt (env.eval w)) = some name →
            ∃ id, Searched g t id ∧ ∃ p, env.parts[id]? = some p ∧ ∃ hd ∈ p.headers, hd.name = name) := by
  obtain ⟨i, hi, hp, ha⟩ := exists_fields y has he h
  refine ⟨i, _, hi, hp, ?_⟩
  intro env t isNot fuel ht hpart hf
  obtain ⟨b, h1, h2⟩ := Tests.exists_test env.parts t ht (i.headers.map (nameOf env)) i.anyChild isNot fuel hf
  refine ⟨b, by unfold «exists»; rw [hpart]; exact h1, h2.trans ?_⟩
  constructor
  · intro h3 w hw name hn
    obtain ⟨id, h4, h5⟩ := h3 name (List.mem_map.2 ⟨w, hw, hn⟩)
    exact ⟨id, (searched_iff ha t id).1 h4, h5⟩
  · intro h3 name hn
    obtain ⟨w, hw, hn⟩ := List.mem_map.1 hn
    obtain ⟨id, h4, h5⟩ := h3 w hw name hn
    exact ⟨id, (searched_iff ha t id).2 h4, h5⟩

/-- The envelope fields by their names (RFC 5228, 5.4, RFC 6009). -/
inductive FieldName : String → Tests.EnvName → Prop where
  | «from» : FieldName "from" .from
  | to_ : FieldName "to" .to
  | orcpt : FieldName "orcpt" .orcpt
  | absolute : FieldName "bytimeabsolute" .byTimeAbsolute
  | relative : FieldName "bytimerelative" (.other 0)
  | mode : FieldName "bymode" (.other 1)
  | trace : FieldName "bytrace" (.other 2)
  | notify : FieldName "notify" (.other 3)
  | ret : FieldName "ret" (.other 4)
  | envid : FieldName "envid" (.other 5)

theorem fieldOf_iff (s : List UInt8) (n : Tests.EnvName) : fieldOf s = some n ↔ ∃ t, FieldName t n ∧ s = bytes t := by
  constructor
  · unfold fieldOf
    intro h
    split at h
    · cases h; exact ⟨_, .from, ‹_›⟩
    split at h
    · cases h; exact ⟨_, .to_, ‹_›⟩
    split at h
    · cases h; exact ⟨_, .absolute, ‹_›⟩
    split at h
    · cases h; exact ⟨_, .relative, ‹_›⟩
    split at h
    · cases h; exact ⟨_, .mode, ‹_›⟩
    split at h
    · cases h; exact ⟨_, .trace, ‹_›⟩
    split at h
    · cases h; exact ⟨_, .notify, ‹_›⟩
    split at h
    · cases h; exact ⟨_, .orcpt, ‹_›⟩
    split at h
    · cases h; exact ⟨_, .ret, ‹_›⟩
    split at h
    · cases h; exact ⟨_, .envid, ‹_›⟩
    · cases h
  · rintro ⟨t, ht, rfl⟩
    cases ht <;> decide +kernel

theorem firstOnce_mem {ss l : List (List UInt8)} (h : FirstOnce ss l) (s : List UInt8) : s ∈ l ↔ ∃ t ∈ ss, lower t = s := by
  induction h with
  | nil => simp
  | new h hn ih =>
    simp only [List.mem_append, List.mem_singleton, ih]
    constructor
    · rintro (⟨t, h1, h2⟩ | rfl)
      · exact ⟨t, .inl h1, h2⟩
      · exact ⟨_, .inr rfl, rfl⟩
    · rintro ⟨t, h1 | rfl, h2⟩
      · exact .inl ⟨t, h1, h2⟩
      · exact .inr h2.symm
  | seen h hs ih =>
    simp only [List.mem_append, List.mem_singleton, ih]
    constructor
    · rintro ⟨t, h1, h2⟩; exact ⟨t, .inl h1, h2⟩
    · rintro ⟨t, h1 | rfl, h2⟩
      · exact ⟨t, h1, h2⟩
      · obtain ⟨t', h3, h4⟩ := hs; exact ⟨t', h3, h4.trans h2⟩

/-- The time zone that is asked for. -/
inductive ZoneIs (g : Got F) : Option Int → Prop where
  | none : ¬ Uses g .Zone → ZoneIs g none
  | zone {z} : (.Zone, .zone z) ∈ g.tags → ZoneIs g (some z)

theorem zone_iff {g : Got F} {z : Option Int} (h : Stores g [.Zone] OffsetMeans none z) (z' : Option Int) :
    ZoneIs g z' ↔ z' = z := by
  constructor
  · rintro (hn | ht)
    · exact (h.default (by simpa using hn)).symm
    · obtain ⟨_, h1, h2⟩ := h.given _ _ ht (by simp)
      injection h1 with h1
      rw [h2, h1]
  · rintro rfl
    rcases stored_used h with ⟨w, hw, a, ht, z, rfl, rfl⟩ | ⟨hn, rfl⟩
    · rw [List.mem_singleton] at hw
      subst hw
      exact .zone ht
    · exact .none (by simpa using hn)

/-- C118: `envelope`. -/
theorem envelope_written (y : Args.Ext F) (has : Cap → Bool) {e : Entry} (he : testEntry .Envelope = some e)
    {ts : List (Tok F)} {g : Got F} {r : List (Tok F)} (h : readEntry y has .Envelope e ts = some (g, r)) :
    ∃ i ns ks, Envelope.of g = some i ∧ g.pos = [.texts ns, .vals ks] ∧
      ∀ (env : Env F N) (isNot : Bool) (cp : Nat), env.x.Ok → Comparing g →
        (cp ≠ 0 → ∀ f ∈ env.envelope, ∀ q z v, Part g q → ZoneIs g z →
          Tests.EnvelopeValue env.x q (z.map env.shift) f.1 (Tests.text env.x.flt f.2) v → Letterwise env.x v) →
        ∃ b caps, envelope env isNot cp i = ⟨.bool (b ^^ isNot), caps⟩ ∧
          (b = true ↔ ∃ f ∈ env.envelope, (∃ w ∈ ns, ∃ n, FieldName n f.1 ∧ lower w = bytes n) ∧
            ∃ q z v, Part g q ∧ ZoneIs g z ∧
              Tests.EnvelopeValue env.x q (z.map env.shift) f.1 (Tests.text env.x.flt f.2) v ∧
              ∃ k ∈ ks, Meets env.x g (.text v) (.val (env.eval k))) := by
  obtain ⟨i, ns, hi, hp, hfst, hc, hq, hz⟩ := envelope_fields y has he h
  refine ⟨i, ns, _, hi, hp, ?_⟩
  intro env isNot cp ok hg hl
  have hpq := (part_iff hq _).2 rfl
  have hzi := (zone_iff hz _).2 rfl
  obtain ⟨b, caps, h1, h2⟩ := Tests.envelope_test ok isNot (comparatorOf i.comparator) (matchOf cp i.matchType)
    (comparing_of hc hg cp) (partOf i.part) (i.zone.map env.shift) (i.fields.filterMap fieldOf) env.envelope
    (i.keys.map env.eval) (fun f hf v h2 => charwise_of (fun h0 => hl h0 f hf _ _ v hpq hzi h2) _ _)
  have names : ∀ n, n ∈ i.fields.filterMap fieldOf ↔ ∃ w ∈ ns, ∃ t, FieldName t n ∧ lower w = bytes t := by
    intro n
    rw [List.mem_filterMap]
    constructor
    · rintro ⟨s, h3, h4⟩
      obtain ⟨w, h5, rfl⟩ := (firstOnce_mem hfst s).1 h3
      exact ⟨w, h5, (fieldOf_iff _ n).1 h4⟩
    · rintro ⟨w, h5, h6⟩
      exact ⟨lower w, (firstOnce_mem hfst _).2 ⟨w, h5, rfl⟩, (fieldOf_iff _ n).2 h6⟩
  refine ⟨b, caps, h1, h2.trans ?_⟩
  constructor
  · rintro ⟨f, h3, h4, v, h5, k, h6, h7⟩
    obtain ⟨k, h8, rfl⟩ := List.mem_map.1 h6
    exact ⟨f, h3, (names _).1 h4, _, _, v, hpq, hzi, h5, k, h8, (meets_iff hc _ _ _ _).1 h7⟩
  · rintro ⟨f, h3, h4, q, z, v, h9, h10, h5, k, h6, h7⟩
    obtain rfl := (part_iff hq q).1 h9
    obtain rfl := (zone_iff hz z).1 h10
    exact ⟨f, h3, (names _).2 h4, v, h5, _, List.mem_map_of_mem h6, (meets_iff hc _ _ _ _).2 h7⟩

/-- The variables `hasflag` looks at: those it names, or the internal one if it names none. -/
inductive FlagVar (env : Env F N) (g : Got F) : Expr.Val F → Prop where
  | internal {fs a} : g.pos = [.vals fs] ∨ g.pos = [.vals [], .vals fs] → env.flags = some a → FlagVar env g a
  | named {vs fs w a} : g.pos = [.vals vs, .vals fs] → w ∈ vs → env.getVariable w = some a → FlagVar env g a

/-- The flags that `hasflag` asks for (`Flags.tokens`, see `Flags.tokens_single` and `Flags.tokens_list`). -/
inductive FlagKey (env : Env F N) (g : Got F) : List Char → Prop where
  | one {fs k} : g.pos = [.vals fs] → k ∈ Flags.tokens env.x.ws (fs.map fun f => Tests.text env.x.flt (env.eval f)) →
      FlagKey env g k
  | two {vs fs k} : g.pos = [.vals vs, .vals fs] →
      k ∈ Flags.tokens env.x.ws (fs.map fun f => Tests.text env.x.flt (env.eval f)) → FlagKey env g k

/-- C118: `hasflag`.  Not for `:regex`, which is treated as `:matches`. -/
theorem hasflag_written_partial (y : Args.Ext F) (has : Cap → Bool) {e : Entry} (he : testEntry .HasFlag = some e)
    {ts : List (Tok F)} {g : Got F} {r : List (Tok F)} (h : readEntry y has .HasFlag e ts = some (g, r)) :
    ∃ i, HasFlag.of g = some i ∧
      ∀ (env : Env F N) (isNot : Bool) (cp : Nat), env.x.Ok → Comparing g → ¬ Uses g .Regex →
        (cp ≠ 0 → ∀ a, FlagVar env g a → ∀ f ∈ Flags.splitSp (Tests.text env.x.flt a), Letterwise env.x f) →
        ∃ b caps, hasflag env isNot cp i = ⟨.bool (b ^^ isNot), caps⟩ ∧
          (b = true ↔ ∃ a, FlagVar env g a ∧ a ≠ .str [] ∧ ∃ f ∈ Flags.splitSp (Tests.text env.x.flt a),
            ∃ k, FlagKey env g k ∧ Meets env.x g (.text f) (.text k)) := by
  obtain ⟨i, hi, hp, hc⟩ := hasflag_fields y has he h
  refine ⟨i, hi, ?_⟩
  intro env isNot cp ok hg hr hl
  have hvars : ∀ a, a ∈ (if i.vars.isEmpty then env.flags.toList else i.vars.filterMap env.getVariable) ↔ FlagVar env g a := by
    intro a
    constructor
    · intro ha
      cases hv : i.vars with
      | nil =>
        rw [hv] at ha hp
        refine .internal (fs := i.flags) ?_ (by simpa using ha)
        rcases hp with ⟨hp, -⟩ | hp
        · exact .inl hp
        · exact .inr hp
      | cons v vs =>
        rw [hv] at ha
        rw [if_neg (by simp)] at ha
        obtain ⟨w, h1, h2⟩ := List.mem_filterMap.1 ha
        rcases hp with ⟨-, hp⟩ | hp
        · rw [hv] at hp; cases hp
        · exact .named hp (by rw [hv]; exact h1) h2
    · rintro (⟨h1, h2⟩ | ⟨h1, h2, h3⟩)
      · have : i.vars = [] := by
          rcases h1 with h1 | h1
          · rcases hp with ⟨-, hp⟩ | hp
            · exact hp
            · rw [h1] at hp; simp at hp
          · rcases hp with ⟨-, hp⟩ | hp
            · exact hp
            · rw [h1] at hp; simp at hp; exact hp.1
        rw [this]
        simpa using h2
      · rcases hp with ⟨hp, -⟩ | hp
        · rw [h1] at hp; simp at hp
        · rw [h1] at hp
          injection hp with h4 h5
          injection h4 with h4
          subst h4
          rw [if_neg (by intro he; rw [List.isEmpty_iff] at he; rw [he] at h2; cases h2)]
          exact List.mem_filterMap.2 ⟨_, h2, h3⟩
  have hkeys : ∀ k, k ∈ Flags.tokens env.x.ws ((i.flags.map env.eval).map (Tests.text env.x.flt)) ↔ FlagKey env g k := by
    intro k
    rw [List.map_map]
    constructor
    · intro hk
      rcases hp with ⟨hp, -⟩ | hp
      · exact .one hp hk
      · exact .two hp hk
    · rintro (⟨h1, h2⟩ | ⟨h1, h2⟩)
      · rcases hp with ⟨hp, -⟩ | hp
        · rw [h1] at hp
          injection hp with h4
          injection h4 with h4
          subst h4
          exact h2
        · rw [h1] at hp; simp at hp
      · rcases hp with ⟨hp, -⟩ | hp
        · rw [h1] at hp; simp at hp
        · rw [h1] at hp
          injection hp with h4 h5
          injection h5 with h5
          injection h5 with h5
          subst h5
          exact h2
  have hm : Tests.hasflagMatch (matchOf cp i.matchType) = matchOf cp i.matchType := by
    rcases stored_used hc.matchType with ⟨w, -, a, ht, hm⟩ | ⟨-, hd⟩
    · generalize i.matchType = m at hm
      cases hm <;> first | rfl | exact (hr ⟨_, ht⟩).elim
    · rw [hd]; rfl
  obtain ⟨b, caps, h1, h2⟩ := Tests.hasflag_test ok isNot (comparatorOf i.comparator) (matchOf cp i.matchType)
    (comparing_of hc hg cp) (if i.vars.isEmpty then env.flags.toList else i.vars.filterMap env.getVariable)
    (i.flags.map env.eval) (fun a ha f hf => by
      rw [hm]
      exact charwise_of (fun h0 => hl h0 a ((hvars a).1 ha) f hf) _ _)
  refine ⟨b, caps, h1, h2.trans ?_⟩
  rw [hm]
  constructor
  · rintro ⟨a, h3, h4, f, h5, k, h6, h7⟩
    exact ⟨a, (hvars a).1 h3, h4, f, h5, k, (hkeys k).1 h6, (meets_iff hc _ _ _ _).1 h7⟩
  · rintro ⟨a, h3, h4, f, h5, k, h6, h7⟩
    exact ⟨a, (hvars a).2 h3, h4, f, h5, k, (hkeys k).2 h6, (meets_iff hc _ _ _ _).2 h7⟩

/-- C118: `string` with one key (with several, all but the last are without effect, `Tests.string_last_key`). -/
theorem string_written_partial (y : Args.Ext F) (has : Cap → Bool) {e : Entry} (he : testEntry .String = some e)
    {ts : List (Tok F)} {g : Got F} {r : List (Tok F)} (h : readEntry y has .String e ts = some (g, r)) :
    ∃ i ss ks, StringTest.of g = some i ∧ g.pos = [.vals ss, .vals ks] ∧
      ∀ (env : Env F N) (isNot : Bool) (cp : Nat) (k : Val F), env.x.Ok → Comparing g → ks = [k] →
        (cp ≠ 0 → ∀ s ∈ ss, Letterwise env.x (Tests.text env.x.flt (env.eval s))) →
        ∃ b caps, string env isNot cp i = ⟨.bool (b ^^ isNot), caps⟩ ∧
          (b = true ↔ ∃ s ∈ ss, Meets env.x g (.val (env.eval s)) (.val (env.eval k))) := by
  obtain ⟨i, hi, hp, hc⟩ := string_fields y has he h
  refine ⟨i, _, _, hi, hp, ?_⟩
  intro env isNot cp k ok hg hk hl
  obtain ⟨b, caps, h1, h2⟩ := Tests.string_test_partial ok false isNot (comparatorOf i.comparator) (matchOf cp i.matchType)
    (comparing_of hc hg cp) (i.source.map env.eval) (env.eval k) (fun a ha => by
      obtain ⟨s, hs, rfl⟩ := List.mem_map.1 ha
      exact charwise_of (fun h0 => hl h0 s hs) _ _)
  refine ⟨b, caps, by unfold string; rw [hk]; exact h1, h2.trans ?_⟩
  constructor
  · rintro ⟨a, h3, -, h4⟩
    obtain ⟨s, hs, rfl⟩ := List.mem_map.1 h3
    exact ⟨s, hs, (meets_iff hc _ _ _ _).1 h4⟩
  · rintro ⟨s, hs, h4⟩
    exact ⟨_, List.mem_map_of_mem hs, by simp, (meets_iff hc _ _ _ _).2 h4⟩

/-! ## A test from its text to its result -/

theorem contains_read (y : Args.Ext F) (has : Cap → Bool) {e : Entry} (he : testEntry .Header = some e) (n k : List UInt8)
    (hn : y.headerOk n = true) (rest : List (Tok F)) :
    readEntry y has .Header e (.tag .Contains :: .string n :: .string k :: rest) =
      some (⟨[(.Contains, .flag)], [.vals [.text n], .vals [.text k]]⟩, rest) := by
  have he' := he
  injection he' with he'
  subst he'
  simp only [readEntry, readShape, List.all_nil, if_true, List.length_cons]
  rw [loop]
  simp only [show ∀ q, Rows.tag (matchListRows 1 ++ comparatorRow 2 ++ indexRows 3 ++ mimeRows 5 ++ q) .Contains =
    some ⟨1, none, .flag⟩ from fun _ => rfl]
  simp [validate, noParams, maxParams, hasAll, readKind, loop, readPos, readStrings, readLit, textOk, hn, check, mimeCheck, regexCheck, Got.hasTag]

/-- C118 for `header :contains "n" "k"`: it is true exactly if a header field of the current part that is called `n`
contains `k`, without regard to case. -/
theorem header_contains [DecidableEq N] (y : Args.Ext F) (has : Cap → Bool) {e : Entry} (he : testEntry .Header = some e)
    (n k : List UInt8) (hn : y.headerOk n = true) (rest : List (Tok F)) :
    ∃ g i, readEntry y has .Header e (.tag .Contains :: .string n :: .string k :: rest) = some (g, rest) ∧ Header.of g = some i ∧
      ∀ (env : Env F N) (t : Mime.Tree) (p : Mime.Part N Tests.Field) (isNot : Bool) (fuel : Nat) (name : N), env.x.Ok →
        Mime.Represents env.parts t → env.part = t.id → env.parts[t.id]? = some p → t.preorder.length < fuel →
        env.headerName (Tests.text env.x.flt (env.eval (.text n))) = some name →
        ∃ b caps, header env isNot 0 fuel i = some ⟨.bool (b ^^ isNot), caps⟩ ∧
          (b = true ↔ ∃ hd ∈ p.headers, hd.name = name ∧ ∃ v, Tests.FieldValue env.x (env.plain name) hd.value .none v ∧
            env.x.cm.strLower (Tests.text env.x.flt (env.eval (.text k))) <:+: env.x.cm.strLower v) := by
  have hr := contains_read y has he n k hn rest
  obtain ⟨i, hs, ks, hi, hp, hw⟩ := header_written (N := N) y has he hr
  injection hp with h1 h2
  injection h1 with h1
  injection h2 with h2
  injection h2 with h2
  subst h1 h2
  refine ⟨_, i, hr, hi, ?_⟩
  intro env t p isNot fuel name ok ht hpart hroot hf hname
  have tags : ∀ w a, (w, a) ∈ [(Word.Contains, (Arg.flag : Arg F))] ↔ w = .Contains ∧ a = .flag := by simp
  have no : ∀ {w : Word}, w ≠ .Contains →
      ¬ Uses (⟨[(.Contains, .flag)], [.vals [.text n], .vals [.text k]]⟩ : Got F) w :=
    fun h ⟨a, ha⟩ => h ((tags _ _).1 ha).1
  obtain ⟨b, caps, h1, h2⟩ := hw env t isNot 0 fuel ok ht hpart hf ⟨no (by simp), no (by simp)⟩ (fun h => absurd rfl h)
  refine ⟨b, caps, h1, h2.trans ?_⟩
  constructor
  · rintro ⟨hd, ⟨id, h3 | ⟨h3, -⟩, p', h4, w, h5, name', h6, idx, h7, pos, h8, h9⟩, v, h10, k', h11, h12⟩
    · subst h3
      rw [hroot] at h4
      cases h4
      rw [List.mem_singleton] at h5 h11
      subst h5 h11
      rw [hname] at h6
      cases h6
      rw [h7.default (no (by simp))] at h9
      obtain ⟨⟨hd', h13, h14⟩, -⟩ := h9
      rw [h8] at h13
      cases h13
      refine ⟨hd, List.mem_of_getElem? h8, h14, v, ?_, ?_⟩
      · cases h10 with
        | text _ h => rw [← h14]; exact h
        | type h => exact absurd h (no (by simp))
        | subtype h => exact absurd h (no (by simp))
        | contentType h => exact absurd h (no (by simp))
        | param h => exact absurd ⟨_, h⟩ (no (w := .Param) (by simp))
      · cases h12 with
        | containsText _ _ h => exact h
        | containsOctet _ h => exact absurd ⟨_, h⟩ (no (w := .Comparator) (by simp))
        | isOctet _ h => exact absurd ⟨_, h⟩ (no (w := .Comparator) (by simp))
        | isNumber _ h => exact absurd ⟨_, h⟩ (no (w := .Comparator) (by simp))
        | isText h => rcases h with h | ⟨-, h⟩
                      · exact absurd h (no (by simp))
                      · exact absurd ⟨_, List.mem_singleton_self _⟩ (h .Contains (by simp [matchTags]))
        | valueOctet h => exact absurd ⟨_, h⟩ (no (w := .Value) (by simp))
        | valueNumber h => exact absurd ⟨_, h⟩ (no (w := .Value) (by simp))
        | valueText h => exact absurd ⟨_, h⟩ (no (w := .Value) (by simp))
        | globText h => rcases h with h | ⟨h, -⟩
                        · exact absurd h (no (by simp))
                        · cases h
        | globExact h => rcases h with h | ⟨h, -⟩
                         · exact absurd h (no (by simp))
                         · cases h
        | regex h => rcases h with h | ⟨h, -⟩
                     · exact absurd h (no (by simp))
                     · cases h
    · exact absurd h3 (no (by simp))
  · rintro ⟨hd, h3, h4, v, h5, h6⟩
    obtain ⟨pos, h7⟩ := List.mem_iff_getElem?.1 h3
    refine ⟨hd, ⟨t.id, .inl rfl, p, hroot, _, List.mem_singleton_self _, name, hname, none, ⟨fun a h => absurd ⟨a, h⟩ (no (by simp)),
      fun _ => rfl⟩, pos, h7, ⟨⟨hd, h7, h4⟩, trivial⟩⟩, v, .text (fun w hw => no (by rintro rfl; simp at hw)) (by rw [h4]; exact h5),
      _, List.mem_singleton_self _, .containsText (.inl ⟨_, List.mem_singleton_self _⟩) (fun h => no (w := .Comparator) (by simp) ⟨_, h⟩) h6⟩

/-! ## Examples -/

def exArgs : Args.Ext Int where
  showNum := fun _ => bytes "1"
  varOk := fun s => s ≠ []
  headerOk := fun s => s ≠ []
  regexOk := fun s => s ≠ []
  fromOk := fun s => s ≠ []
  uriOk := fun s => s ≠ []
  nameOk := fun s => s ≠ []
  exprOk := fun s => s ≠ []
  parseInt := fun _ => none
  toInt := fun n => n
  maxHeader := 100
  noCheck := false
  maxIncludes := 10

/-- Header names are numbers, the message is that of `Tests.exParts`. -/
def exEnv : Env Int Nat where
  x := Tests.exExt
  eval := fun | .text s => .str (s.map fun b => Char.ofNat b.toNat) | _ => .str []
  headerName := fun s => if s = ['X'] then some 1 else if s = ['Y'] then some 2 else none
  plain := fun _ => false
  parts := Tests.exParts
  part := 0
  envelope := [(.from, .str "a@b".toList), (.to, .str "c".toList)]
  shift := fun _ s => some s
  getVariable := fun _ => none
  flags := some (.str "Ab c".toList)

/-- The result of a test that is read with `testEntry`. -/
def resultOf {α β : Type} (w : Word) (ts : List (Tok Int)) (of : Got Int → Option α) (run : α → Option β) : Option β :=
  (testEntry w).bind fun e => (readEntry exArgs (fun _ => true) w e ts).bind fun p => (of p.1).bind run

/-- `header :contains "X" "aB"`, `header :contains "X" "AB"` where only `A` has a lower case -/
example : resultOf .Header [.tag .Contains, .string (bytes "X"), .string (bytes "aB")] Header.of (header exEnv false 0 3) =
      some ⟨.bool false, []⟩ ∧
    resultOf .Header [.tag .Contains, .string (bytes "X"), .string (bytes "ab")] Header.of (header exEnv false 0 3) =
      some ⟨.bool true, []⟩ := by
  decide +kernel

/-- `header :index 1 :last :comparator "i;octet" "X" "Ab"` -/
example : resultOf .Header [.tag .Index, .number 1, .tag .Last, .tag .Comparator, .string (bytes "i;octet"), .string (bytes "X"),
      .string (bytes "Ab")] Header.of (header exEnv false 0 3) = some ⟨.bool true, []⟩ ∧
    resultOf .Header [.tag .Index, .number 1, .tag .Comparator, .string (bytes "i;octet"), .string (bytes "X"),
      .string (bytes "Ab")] Header.of (header exEnv false 0 3) = some ⟨.bool false, []⟩ := by
  decide +kernel

/-- `exists ["X", "Y"]`, `exists ["X", "-"]` -/
example : resultOf .Exists [.bracketOpen, .string (bytes "X"), .comma, .string (bytes "Y"), .bracketClose] Exists.of
      («exists» exEnv false 3) = some true ∧
    resultOf .Exists [.bracketOpen, .string (bytes "X"), .comma, .string (bytes "-"), .bracketClose] Exists.of
      («exists» exEnv true 3) = some false := by
  decide +kernel

/-- `envelope :matches ["From", "from"] "a*"` -/
example : resultOf .Envelope [.tag .Matches, .bracketOpen, .string (bytes "From"), .comma, .string (bytes "from"), .bracketClose,
      .string (bytes "a*")] Envelope.of (fun i => some (envelope exEnv false 2 i)) = some ⟨.bool true, [(1, "@b".toList)]⟩ := by
  decide +kernel

/-- `hasflag ["x", "ab"]`, `hasflag "v" "ab"` -/
example : resultOf .HasFlag [.bracketOpen, .string (bytes "x"), .comma, .string (bytes "ab"), .bracketClose] HasFlag.of
      (fun i => some (hasflag exEnv false 0 i)) = some ⟨.bool true, []⟩ ∧
    resultOf .HasFlag [.string (bytes "v"), .string (bytes "ab")] HasFlag.of (fun i => some (hasflag exEnv false 0 i)) =
      some ⟨.bool false, []⟩ := by
  decide +kernel

/-- `string :value "gt" "b" "a"` -/
example : resultOf .String [.tag .Value, .string (bytes "gt"), .string (bytes "b"), .string (bytes "a")] StringTest.of
      (fun i => some (string exEnv false 0 i)) = some ⟨.bool true, []⟩ := by
  decide +kernel

example : Tests.exExt.Ok ∧ Mime.Represents exEnv.parts (.node 0 []) ∧ exEnv.part = (Mime.Tree.node 0 []).id ∧
    (Mime.Tree.node 0 []).preorder.length < 3 := ⟨Tests.exOk, Tests.exTree, rfl, by decide⟩

end Sieve.Written
