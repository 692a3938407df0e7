import Verif.TestsLemmas
import Verif.HeaderProps
import Verif.MimeProps

/-!
# Properties of tests

C39: a test is true exactly if one of the examined values matches one of the keys.
C40: relational comparisons.
-/

namespace Sieve.Tests
open Sieve.Expr (Val Flt Ieee)

variable {F N : Type}

/-! ## Specification -/

/-- Strings ordered by their code points. -/
def StrLt (a b : Str) : Prop := List.Lex (fun c d => c.toNat < d.toNat) a b

/-- The six relations between strings. -/
def StrSat (a b : Str) : Rel → Prop
  | .gt => StrLt b a
  | .ge => ¬ StrLt a b
  | .lt => StrLt a b
  | .le => ¬ StrLt b a
  | .eq => a = b
  | .ne => a ≠ b

/-- The six relations between numbers, from the order of the two (none if one of them is not a number). -/
def NumSat (A : Flt F) (a b : Expr.Num F) : Rel → Prop
  | .gt => a.cmp A b = some .gt
  | .ge => a.cmp A b = some .gt ∨ a.cmp A b = some .eq
  | .lt => a.cmp A b = some .lt
  | .le => a.cmp A b = some .lt ∨ a.cmp A b = some .eq
  | .eq => a.cmp A b = some .eq
  | .ne => a.cmp A b ≠ some .eq

/-- The value matches the key (RFC 5228 section 2.7, RFC 5231). -/
def Holds (x : Ext F) (c : Comparator) (m : Match) (v k : Item F) : Prop :=
  match m, c with
  | .is, .octet => v.str x = k.str x
  | .is, .asciiNumeric => NumSat x.flt (v.number x) (k.number x) .eq
  | .is, _ => x.cm.strLower (v.str x) = x.cm.strLower (k.str x)
  | .contains, .octet => k.str x <:+: v.str x
  | .contains, _ => x.cm.strLower (k.str x) <:+: x.cm.strLower (v.str x)
  | .value r, .octet => StrSat (v.str x) (k.str x) r
  | .value r, .asciiNumeric => NumSat x.flt (v.number x) (k.number x) r
  | .value r, _ => StrSat (x.cm.strLower (v.str x)) (x.cm.strLower (k.str x)) r
  | .matches _, .asciiCaseMap => ∃ ts, Glob.MatchesWith (Glob.folded x.cm) (k.str x) (x.cm.strLower (v.str x)) ts
  | .matches _, _ => ∃ ts, Glob.MatchesWith Glob.exactly (k.str x) (v.str x) ts
  | .regex _, _ => x.isMatch (k.str x) (v.str x) = true
  | .count _, _ => False
  | .list, _ => False

/-- What is assumed of the libraries. -/
structure Ext.Ok (x : Ext F) : Prop where
  ieee : Ieee x.flt
  lowerEmpty : x.cm.strLower [] = []
  lowerSome : ∀ c, x.cm.isUpper c = true → x.cm.lower c ≠ []
  regex : ∀ p v, (x.captures p v).isSome = x.isMatch p v

/-- Lower-casing `v` as a whole is lower-casing its characters: needed of the values if match variables are
captured without regard to case, since the code then lower-cases character by character. -/
def Charwise (x : Ext F) (c : Comparator) (m : Match) (v : Str) : Prop :=
  ∀ cp, m = .matches cp → cp ≠ 0 → c = .asciiCaseMap →
    x.cm.strLower v = v.flatMap fun ch => if x.cm.isUpper ch = true then x.cm.lower ch else [ch]

/-! ## Comparators -/

theorem strLt_iff (a b : Str) : StrLt a b ↔ Expr.cmpStr a b = .lt := by
  unfold StrLt
  induction a generalizing b with
  | nil =>
    cases b with
    | nil => exact ⟨(fun h => nomatch h), fun h => by simp [Expr.cmpStr] at h⟩
    | cons d ds => exact ⟨fun _ => rfl, fun _ => .nil⟩
  | cons c cs ih =>
    cases b with
    | nil => exact ⟨(fun h => nomatch h), fun h => by simp [Expr.cmpStr] at h⟩
    | cons d ds =>
      simp only [Expr.cmpStr]
      constructor
      · intro h
        cases h with
        | rel h => rw [if_pos h]
        | cons h => rw [if_neg (by omega), if_neg (by omega)]; exact (ih ds).mp h
      · intro h
        by_cases h1 : c.toNat < d.toNat
        · exact .rel h1
        · rw [if_neg h1] at h
          by_cases h2 : d.toNat < c.toNat
          · rw [if_pos h2] at h; cases h
          · rw [if_neg h2] at h
            have : c = d := by
              apply Char.ext
              apply UInt32.toNat.inj
              show c.toNat = d.toNat
              omega
            subst this
            exact .cons ((ih ds).mpr h)

/-- C40, strings: the relations computed by the code are those of the order of code points. -/
theorem relational_strings (r : Rel) (a b : Str) : r.str a b = true ↔ StrSat a b r := by
  have hs := Expr.cmpStr_swap a b
  have he := Expr.cmpStr_eq a b
  cases r <;> simp only [Rel.str, Rel.cmp, StrSat, strLt_iff, hs] <;>
    cases h : Expr.cmpStr a b <;> simp_all [Ordering.swap] <;> decide

theorem numEq_cmp {A : Flt F} (hA : Ieee A) (a b : Expr.Num F) : numEq A a b = true ↔ a.cmp A b = some .eq := by
  cases a <;> cases b <;> simp [numEq, Expr.Num.cmp, hA.eq_cmp, Expr.cmpInt_eq]

theorem relNum_iff {A : Flt F} (hA : Ieee A) (r : Rel) (a b : Expr.Num F) : r.num A a b = true ↔ NumSat A a b r := by
  have := numEq_cmp hA a b
  cases r <;> simp [Rel.num, Rel.cmp, NumSat, this]
  rw [← this]; simp

theorem is_iff {x : Ext F} (hx : x.Ok) (c : Comparator) (v k : Item F) : c.is x v k = true ↔ Holds x c .is v k := by
  cases c <;> simp [Comparator.is, Holds, relNum_iff hx.ieee]

theorem contains_iff {x : Ext F} (hx : x.Ok) (c : Comparator) (v k : Item F) :
    c.contains x (v.str x) (k.str x) = true ↔ Holds x c .contains v k := by
  unfold Comparator.contains
  rw [Bool.or_eq_true, List.isEmpty_iff]
  cases c <;> simp only [Holds, infixOf_iff, or_iff_right_iff_imp] <;> intro h <;> rw [h]
  · exact List.nil_infix
  all_goals rw [hx.lowerEmpty]; exact List.nil_infix

theorem relational_iff {x : Ext F} (hx : x.Ok) (c : Comparator) (r : Rel) (v k : Item F) :
    c.relational x r v k = true ↔ Holds x c (.value r) v k := by
  cases c <;> simp only [Comparator.relational, Holds, relational_strings, relNum_iff hx.ieee]

theorem glob_iff {x : Ext F} (hx : x.Ok) (c : Comparator) (cp : Nat) (v k : Item F)
    (hv : Charwise x c (.matches cp) (v.str x)) (caps : Caps) :
    (c.glob x caps (v.str x) (k.str x) cp).2 = true ↔ Holds x c (.matches cp) v k := by
  by_cases hc : c = .asciiCaseMap
  · subst hc
    have e : ((Comparator.asciiCaseMap == Comparator.asciiCaseMap)) = true := rfl
    simp only [Comparator.glob, Holds, e]
    obtain ⟨b, hb, hb'⟩ := Glob.matches_casemap x.cm (k.str x) (v.str x)
    by_cases h0 : cp = 0
    · rw [if_pos h0, hb, ← hb']; simp
    · rw [if_neg h0]
      obtain ⟨r, hr, hr'⟩ := Glob.capture_verdict_casemap_partial x.cm hx.lowerSome (k.str x) (v.str x) cp
        (hv cp rfl h0 rfl)
      rw [hb] at hr'
      rw [hr, ← hb']
      cases hr'
      cases r <;> simp
  · have e : (c == Comparator.asciiCaseMap) = false := by simpa using hc
    have h2 : Holds x c (.matches cp) v k ↔ ∃ ts, Glob.MatchesWith Glob.exactly (k.str x) (v.str x) ts := by
      cases c <;> simp_all [Holds]
    rw [h2]
    simp only [Comparator.glob, e]
    obtain ⟨b, hb, hb'⟩ := Glob.matches_octet x.cm (k.str x) (v.str x)
    by_cases h0 : cp = 0
    · rw [if_pos h0, hb, ← hb']; simp
    · rw [if_neg h0]
      obtain ⟨r, hr, hr'⟩ := Glob.capture_verdict_octet x.cm (k.str x) (v.str x) cp
      rw [hb] at hr'
      rw [hr, ← hb']
      cases hr'
      cases r <;> simp

theorem regex_iff {x : Ext F} (hx : x.Ok) (c : Comparator) (cp : Nat) (v k : Item F) (caps : Caps) :
    (regexMatch x caps (v.str x) (k.str x) cp).2 = true ↔ Holds x c (.regex cp) v k := by
  have e : Holds x c (.regex cp) v k ↔ x.isMatch (k.str x) (v.str x) = true := by cases c <;> rfl
  rw [e, regexMatch]
  split
  · rfl
  · rw [← hx.regex]
    split <;> simp_all

/-- The verdict on one value and one key is the specified one. -/
theorem verdict_iff {x : Ext F} (hx : x.Ok) (c : Comparator) (m : Match) (v k : Item F)
    (hv : Charwise x c m (v.str x)) : verdict x c m v k = true ↔ Holds x c m v k := by
  cases m with
  | is => exact is_iff hx c v k
  | contains => exact contains_iff hx c v k
  | value r => exact relational_iff hx c r v k
  | «matches» cp => exact glob_iff hx c cp v k hv []
  | regex cp => exact regex_iff hx c cp v k []
  | count r => cases c <;> simp [verdict, attempt, Holds]
  | list => cases c <;> simp [verdict, attempt, Holds]

/-! ## Values of a header -/

/-- The field has a readable content type. -/
def HasType (x : Ext F) (f : Field) (ct : CType) : Prop :=
  (f.added = false ∧ f.parsed = .contentType ct) ∨
  (f.added = true ∧ ∃ t, f.parsed = .text t ∧ x.parseContentType (x.utf8 (t ++ ['\n'])) = .contentType ct)

/-- The values of a header field for a `header` test: without `:mime` options its text; the type, the subtype,
both, or the named parameters of its content type.  Absent parts count as the empty string (and for parameters
the empty string is always a value, even if the parameter is there). -/
inductive FieldValue (x : Ext F) (plain : Bool) (f : Field) : MimeOpts → Str → Prop
  | added {t} : f.added = true → f.parsed = .text t → FieldValue x plain f .none t
  | decoded {t} : f.added = false → plain = true → f.parsed = .text t → FieldValue x plain f .none t
  | raw {t} : f.added = false → (plain = true → ∀ t, f.parsed ≠ .text t) → x.parseUnstructured f.raw = .text t →
      FieldValue x plain f .none t
  | unreadable : f.added = false → (plain = true → ∀ t, f.parsed ≠ .text t) →
      (∀ t, x.parseUnstructured f.raw ≠ .text t) → FieldValue x plain f .none []
  | type {ct} : HasType x f ct → FieldValue x plain f .type ct.main
  | subtype {ct s} : HasType x f ct → ct.sub = some s → FieldValue x plain f .subtype s
  | noSubtype {ct} : HasType x f ct → ct.sub = none → FieldValue x plain f .subtype []
  | both {ct s} : HasType x f ct → ct.sub = some s → FieldValue x plain f .contentType (ct.main ++ '/' :: s)
  | only {ct} : HasType x f ct → ct.sub = none → FieldValue x plain f .contentType ct.main
  | param {ct names as n a} : HasType x f ct → ct.attrs = some as → n ∈ names → a ∈ as →
      x.eqIgnoreCase n a.1 = true → FieldValue x plain f (.param names) a.2
  | paramEmpty {ct names} : HasType x f ct → FieldValue x plain f (.param names) []
  | noType {opts} : (f.added = true → ∃ t, f.parsed = .text t) → (∀ ct, ¬ HasType x f ct) → opts ≠ .none →
      FieldValue x plain f opts []

theorem fieldValue_typed {x : Ext F} {plain : Bool} {f : Field} {opts : MimeOpts} (hopts : opts ≠ .none) {p : Parsed}
    (hp : ∀ ct, HasType x f ct ↔ p = .contentType ct) (ht : f.added = true → ∃ t, f.parsed = .text t) (v : Str) :
    v ∈ valuesOf x plain opts f.raw p ↔ FieldValue x plain f opts v := by
  have hno : (∀ ct, p ≠ .contentType ct) → FieldValue x plain f opts [] := fun h =>
    .noType ht (fun ct hc => h ct ((hp ct).mp hc)) hopts
  have hno' : (∀ ct, ¬ HasType x f ct) → ∀ ct, p ≠ .contentType ct := fun h ct hc => h ct ((hp ct).mpr hc)
  cases opts with
  | none => exact absurd rfl hopts
  | type =>
    constructor
    · intro h
      simp only [valuesOf] at h
      split at h
      · rename_i ct
        rw [List.mem_singleton.mp h]
        exact .type ((hp ct).mpr rfl)
      · rename_i h'
        rw [List.mem_singleton.mp h]
        exact hno h'
    · intro h
      cases h with
      | type h => rw [(hp _).mp h]; simp [valuesOf]
      | noType _ h =>
        have := hno' h
        simp [valuesOf]
  | subtype =>
    constructor
    · intro h
      simp only [valuesOf] at h
      split at h
      · rename_i ct
        split at h
        · rename_i s hs
          rw [List.mem_singleton.mp h]
          exact .subtype ((hp ct).mpr rfl) hs
        · rename_i hs
          rw [List.mem_singleton.mp h]
          exact .noSubtype ((hp ct).mpr rfl) hs
      · rename_i h'
        rw [List.mem_singleton.mp h]
        exact hno h'
    · intro h
      cases h with
      | subtype h hs => rw [(hp _).mp h]; simp [valuesOf, hs]
      | noSubtype h hs => rw [(hp _).mp h]; simp [valuesOf, hs]
      | noType _ h =>
        have := hno' h
        simp [valuesOf]
  | contentType =>
    constructor
    · intro h
      simp only [valuesOf] at h
      split at h
      · rename_i ct
        split at h
        · rename_i s hs
          rw [List.mem_singleton.mp h]
          exact .both ((hp ct).mpr rfl) hs
        · rename_i hs
          rw [List.mem_singleton.mp h]
          exact .only ((hp ct).mpr rfl) hs
      · rename_i h'
        rw [List.mem_singleton.mp h]
        exact hno h'
    · intro h
      cases h with
      | both h hs => rw [(hp _).mp h]; simp [valuesOf, hs]
      | only h hs => rw [(hp _).mp h]; simp [valuesOf, hs]
      | noType _ h =>
        have := hno' h
        simp [valuesOf]
  | param names =>
    constructor
    · intro h
      simp only [valuesOf] at h
      split at h
      · rename_i ct
        rw [List.mem_append] at h
        rcases h with h | h
        · split at h
          · rename_i as ha
            simp only [List.mem_flatMap, List.mem_map, List.mem_filter] at h
            obtain ⟨n, hn, a, ⟨h1, h2⟩, rfl⟩ := h
            exact .param ((hp ct).mpr rfl) ha hn h1 h2
          · simp at h
        · rw [List.mem_singleton.mp h]
          exact .paramEmpty ((hp ct).mpr rfl)
      · rename_i h'
        rw [List.mem_singleton.mp h]
        exact hno h'
    · intro h
      cases h with
      | param h ha hn h1 h2 =>
        rw [(hp _).mp h]
        simp only [valuesOf, ha, List.mem_append, List.mem_flatMap, List.mem_map, List.mem_filter]
        exact .inl ⟨_, hn, _, ⟨h1, h2⟩, rfl⟩
      | paramEmpty h => rw [(hp _).mp h]; simp [valuesOf]
      | noType _ h =>
        have := hno' h
        simp [valuesOf]

theorem headerValues_iff (x : Ext F) (plain : Bool) (opts : MimeOpts) (f : Field) (v : Str) :
    v ∈ headerValues x plain opts f ↔ FieldValue x plain f opts v := by
  unfold headerValues
  by_cases ha : f.added = true
  · rw [if_pos ha]
    split
    · rename_i t ht
      split
      · constructor
        · intro h
          rw [List.mem_singleton.mp h]
          exact .added ha ht
        · intro h
          cases h with
          | added _ h => rw [ht] at h; cases h; simp
          | decoded h => rw [ha] at h; cases h
          | raw h => rw [ha] at h; cases h
          | unreadable h => rw [ha] at h; cases h
          | noType _ _ h => exact absurd rfl h
      · rename_i h0
        refine fieldValue_typed (fun h => h0 h) (fun ct => ?_) (fun _ => ⟨t, ht⟩) v
        constructor
        · rintro (⟨h, _⟩ | ⟨_, t', h1, h2⟩)
          · rw [ha] at h; cases h
          · rw [ht] at h1; cases h1; exact h2
        · exact fun h => .inr ⟨ha, t, ht, h⟩
    · rename_i ht
      constructor
      · simp
      · intro h
        have noct : ∀ ct, ¬ HasType x f ct := by
          rintro ct (⟨h, _⟩ | ⟨_, t, h, _⟩)
          · rw [ha] at h; cases h
          · exact absurd h (ht t)
        cases h with
        | added _ h => exact absurd h (ht _)
        | decoded h => rw [ha] at h; cases h
        | raw h => rw [ha] at h; cases h
        | unreadable h => rw [ha] at h; cases h
        | type h => exact absurd h (noct _)
        | subtype h => exact absurd h (noct _)
        | noSubtype h => exact absurd h (noct _)
        | both h => exact absurd h (noct _)
        | only h => exact absurd h (noct _)
        | param h => exact absurd h (noct _)
        | paramEmpty h => exact absurd h (noct _)
        | noType h => obtain ⟨t, h⟩ := h ha; exact absurd h (ht t)
  · rw [if_neg ha]
    have ha' : f.added = false := by simpa using ha
    by_cases ho : opts = .none
    · subst ho
      by_cases hpl : ∃ t, plain = true ∧ f.parsed = .text t
      · obtain ⟨t, hpl, ht⟩ := hpl
        subst hpl
        simp only [valuesOf, ht]
        constructor
        · intro h
          rw [List.mem_singleton.mp h]
          exact .decoded ha' rfl ht
        · intro h
          cases h with
          | added h => exact absurd h ha
          | decoded _ _ h => rw [ht] at h; cases h; simp
          | raw _ h => exact absurd ht (h rfl t)
          | unreadable _ h => exact absurd ht (h rfl t)
          | noType _ _ h => exact absurd rfl h
      · have hp' : plain = true → ∀ t, f.parsed ≠ .text t := fun h t ht => hpl ⟨t, h, ht⟩
        have e : valuesOf x plain .none f.raw f.parsed =
            match x.parseUnstructured f.raw with
            | .text t => [t]
            | _ => [[]] := by
          simp only [valuesOf]
          split
          · rename_i t ht
            exact absurd ht (hp' rfl t)
          · rfl
        rw [e]
        split
        · rename_i t ht
          constructor
          · intro h
            rw [List.mem_singleton.mp h]
            exact .raw ha' hp' ht
          · intro h
            cases h with
            | added h => exact absurd h ha
            | decoded _ h h' => exact absurd h' (hp' h _)
            | raw _ _ h => rw [ht] at h; cases h; simp
            | unreadable _ _ h => exact absurd ht (h t)
            | noType _ _ h => exact absurd rfl h
        · rename_i ht
          constructor
          · intro h
            rw [List.mem_singleton.mp h]
            exact .unreadable ha' hp' ht
          · intro h
            cases h with
            | added h => exact absurd h ha
            | decoded _ h h' => exact absurd h' (hp' h _)
            | raw _ _ h => exact absurd h (ht _)
            | unreadable => simp
            | noType _ _ h => exact absurd rfl h
    · refine fieldValue_typed ho (fun ct => ?_) (fun h => absurd h ha) v
      constructor
      · rintro (⟨_, h⟩ | ⟨h, _⟩)
        · exact h
        · exact absurd h ha
      · exact fun h => .inl ⟨ha', h⟩

/-! ## The headers looked at -/

variable [DecidableEq N]

/-- The headers of the given parts with one of the given names, chosen by `:index` and `:last`
(`Mime.Selected`, C28). -/
def Looked (parts : List (Mime.Part N Field)) (ids : List Nat) (names : List N) (index : Option Int)
    (h : Mime.Header N Field) : Prop :=
  ∃ id ∈ ids, ∃ p, parts[id]? = some p ∧ ∃ name ∈ names, ∃ pos, p.headers[pos]? = some h ∧
    Mime.Selected p.headers index name pos

/-- The parts searched: the current one, with `:anychild` also everything inside it. -/
def searched (anychild : Bool) (t : Mime.Tree) : List Nat := if anychild then t.preorder else [t.id]

theorem found_iff (parts : List (Mime.Part N Field)) (t : Mime.Tree) (ht : Mime.Represents parts t) (names : List N)
    (index : Option Int) (anychild : Bool) (fuel : Nat) (hfuel : t.preorder.length < fuel) :
    ∃ found, Mime.findHeaders parts t.id names index anychild fuel = some found ∧
      ∀ h, h ∈ found.map (·.1) ↔ Looked parts (searched anychild t) names index h := by
  have hv : Mime.visit parts anychild fuel [t.id] [] = some (searched anychild t) := by
    cases anychild with
    | true => exact Mime.anychild_preorder parts t ht fuel hfuel
    | false =>
      have h1 : 0 < t.preorder.length := by cases t; simp [Mime.Tree.preorder]
      have h2 : t.id < parts.length := by
        cases ht with
        | leaf h => exact (List.getElem?_eq_some_iff.mp h).1
        | multi h => exact (List.getElem?_eq_some_iff.mp h).1
      obtain ⟨k, rfl⟩ : ∃ k, fuel = k + 2 := ⟨fuel - 2, by omega⟩
      exact Mime.no_anychild parts t.id h2 k
  refine ⟨_, by rw [Mime.findHeaders, hv]; rfl, ?_⟩
  intro h
  simp only [List.mem_map, List.mem_flatMap, Looked]
  constructor
  · rintro ⟨⟨h', id', pos⟩, ⟨id, hid, hm⟩, rfl⟩
    split at hm
    · simp at hm
    · rename_i p hp
      simp only [List.mem_flatMap, List.mem_map, Prod.mk.injEq] at hm
      obtain ⟨name, hn, ⟨a, b⟩, hs, rfl, rfl, rfl⟩ := hm
      have := (Mime.select_iff p.headers index name a b).mp hs
      exact ⟨id, hid, p, hp, name, hn, b, this.1, this.2⟩
  · rintro ⟨id, hid, p, hp, name, hn, pos, h1, h2⟩
    refine ⟨(h, id, pos), ⟨id, hid, ?_⟩, rfl⟩
    rw [hp]
    simp only [List.mem_flatMap, List.mem_map, Prod.mk.injEq]
    exact ⟨name, hn, (h, pos), (Mime.select_iff p.headers index name h pos).mpr ⟨h1, h2⟩, rfl, trivial, rfl⟩

/-! ## C39 -/

/-- Tests by comparison of values with keys (neither `:count` nor `:list`). -/
def Match.comparing : Match → Prop
  | .count _ => False
  | .list => False
  | _ => True

theorem search_iff {x : Ext F} (hx : x.Ok) (c : Comparator) (m : Match) (vals : List Str) (keys : List (Val F))
    (hv : ∀ v ∈ vals, Charwise x c m v) :
    (search x c m vals keys).2 = true ↔ ∃ v ∈ vals, ∃ k ∈ keys, Holds x c m (.text v) (.val k) := by
  rw [search_verdict, List.any_eq_true]
  constructor
  · rintro ⟨v, h1, h2⟩
    obtain ⟨k, h3, h4⟩ := List.any_eq_true.mp h2
    exact ⟨v, h1, k, h3, (verdict_iff hx c m (.text v) _ (hv v h1)).mp h4⟩
  · rintro ⟨v, h1, k, h3, h4⟩
    exact ⟨v, h1, List.any_eq_true.mpr ⟨k, h3, (verdict_iff hx c m (.text v) _ (hv v h1)).mpr h4⟩⟩

omit [DecidableEq N] in
theorem headerTest_search (x : Ext F) (plain : N → Bool) (isNot : Bool) (c : Comparator) {m : Match} (hm : m.comparing)
    (opts : MimeOpts) (found : List (Mime.Header N Field)) (keys : List (Val F)) :
    headerTest x plain isNot c m opts found keys =
      ⟨.bool ((search x c m (found.flatMap fun h => headerValues x (plain h.name) opts h.value) keys).2 ^^ isNot),
        (search x c m (found.flatMap fun h => headerValues x (plain h.name) opts h.value) keys).1⟩ := by
  cases m <;> first | rfl | exact hm.elim

omit [DecidableEq N] in
theorem addressTest_search (x : Ext F) (isNot : Bool) (c : Comparator) {m : Match} (hm : m.comparing)
    (part : AddrPart) (found : List (Mime.Header N Field)) (keys : List (Val F)) :
    addressTest x isNot c m part found keys =
      ⟨.bool ((search x c m (found.flatMap fun h => addressValues x part h.value) keys).2 ^^ isNot),
        (search x c m (found.flatMap fun h => addressValues x part h.value) keys).1⟩ := by
  cases m <;> first | rfl | exact hm.elim

/-- C39 for `header`: the test is true exactly if a value of one of the headers looked at matches one of the
keys, and false exactly then if it is negated. -/
theorem header_test {x : Ext F} (hx : x.Ok) (plain : N → Bool) (isNot : Bool) (c : Comparator) (m : Match)
    (hm : m.comparing) (opts : MimeOpts) (parts : List (Mime.Part N Field)) (t : Mime.Tree)
    (ht : Mime.Represents parts t) (names : List N) (index : Option Int) (anychild : Bool) (fuel : Nat)
    (hfuel : t.preorder.length < fuel) (keys : List (Val F))
    (hv : ∀ h v, Looked parts (searched anychild t) names index h → FieldValue x (plain h.name) h.value opts v →
      Charwise x c m v) :
    ∃ b caps, headerExec x plain isNot c m opts parts t.id names index anychild fuel keys =
        some ⟨.bool (b ^^ isNot), caps⟩ ∧
      (b = true ↔ ∃ h v, Looked parts (searched anychild t) names index h ∧
        FieldValue x (plain h.name) h.value opts v ∧ ∃ k ∈ keys, Holds x c m (.text v) (.val k)) := by
  obtain ⟨found, hf, hl⟩ := found_iff parts t ht names index anychild fuel hfuel
  refine ⟨_, _, by rw [headerExec, hf, Option.map_some, headerTest_search _ _ _ _ hm], ?_⟩
  rw [search_iff hx]
  · constructor
    · rintro ⟨v, h1, k, h2, h3⟩
      obtain ⟨h, h4, h5⟩ := List.mem_flatMap.mp h1
      exact ⟨h, v, (hl h).mp h4, (headerValues_iff ..).mp h5, k, h2, h3⟩
    · rintro ⟨h, v, h4, h5, k, h2, h3⟩
      exact ⟨v, List.mem_flatMap.mpr ⟨h, (hl h).mpr h4, (headerValues_iff ..).mpr h5⟩, k, h2, h3⟩
  · intro v h1
    obtain ⟨h, h4, h5⟩ := List.mem_flatMap.mp h1
    exact hv h v ((hl h).mp h4) ((headerValues_iff ..).mp h5)

/-- A parsed value that is a list of addresses, possibly in groups. -/
def AddrList (p : Parsed) (l : List Addr) : Prop := p = .addresses l ∨ ∃ g, p = .groups g ∧ l = g.flatten

/-- The text of a field, to be read as a list of addresses. -/
def fieldText (x : Ext F) (f : Field) : List UInt8 :=
  match f.added, f.parsed with
  | false, _ => f.raw
  | true, .text t => x.utf8 (t ++ ['\n'])
  | true, _ => []

/-- The addresses of a header field: those it was parsed into, else those its text consists of. -/
def HasAddrs (x : Ext F) (f : Field) (l : List Addr) : Prop :=
  AddrList f.parsed l ∨ (∀ l', ¬ AddrList f.parsed l') ∧ AddrList (x.parseAddress (fieldText x f)) l

/-- An address as a whole: the address, for want of it the name. -/
inductive Whole (a : Addr) : Str → Prop
  | address {e} : a.address = some e → Whole a e
  | name {n} : a.address = none → a.name = some n → Whole a n

/-- The parts of an address. -/
inductive PartOf (x : Ext F) (a : Addr) : AddrPart → Str → Prop
  | all {e} : Whole a e → PartOf x a .all e
  | name {n} : a.name = some n → PartOf x a .name n
  | empty {p} : p ≠ .all → p ≠ .name → Whole a [] → PartOf x a p []
  | part {p e v} : p ≠ .all → p ≠ .name → Whole a e → e ≠ [] → x.part p e = some v → PartOf x a p v

/-- The values of a header field for an `address` test: the requested part of each address that has it; the empty
string if there are no addresses to be found. -/
def AddressValue (x : Ext F) (part : AddrPart) (f : Field) (v : Str) : Prop :=
  (∃ l, HasAddrs x f l ∧ ∃ a ∈ l, PartOf x a part v) ∨ (∀ l, ¬ HasAddrs x f l) ∧ v = []

theorem whole_iff (a : Addr) (e : Str) :
    (match a.address with | some e => some e | none => a.name) = some e ↔ Whole a e := by
  constructor
  · intro h
    cases h1 : a.address with
    | some e' => rw [h1] at h; cases h; exact .address h1
    | none => rw [h1] at h; exact .name h1 h
  · intro h
    cases h with
    | address h => rw [h]
    | name h1 h2 => rw [h1, h2]

/-- The last case of `evalAddr`. -/
def evalPart (x : Ext F) (p : AddrPart) (email : Option Str) : Option Str :=
  match email with
  | some e => if e.isEmpty then email else x.part p e
  | none => none

theorem evalPart_iff {x : Ext F} {a : Addr} {email : Option Str} (hw : ∀ e, email = some e ↔ Whole a e) (v : Str)
    {p : AddrPart} (h1 : p ≠ .all) (h2 : p ≠ .name) : evalPart x p email = some v ↔ PartOf x a p v := by
  constructor
  · intro h
    cases email with
    | none => cases h
    | some e =>
      have he := (hw e).mp rfl
      cases e with
      | nil => simp [evalPart] at h; subst h; exact .empty h1 h2 he
      | cons c e => exact .part h1 h2 he (by simp) h
  · intro h
    cases h with
    | all => exact absurd rfl h1
    | name => exact absurd rfl h2
    | empty _ _ h => rw [(hw _).mpr h]; rfl
    | @part _ e _ _ _ h h3 h4 =>
      rw [(hw _).mpr h]
      cases e with
      | nil => exact absurd rfl h3
      | cons c e => exact h4

theorem evalAddr_iff (x : Ext F) (part : AddrPart) (a : Addr) (v : Str) :
    evalAddr x part a = some v ↔ PartOf x a part v := by
  have hw := whole_iff a
  cases part with
  | all =>
    refine (hw v).trans ⟨fun h => .all h, fun h => ?_⟩
    cases h with
    | all h => exact h
    | empty h => exact absurd rfl h
    | part h => exact absurd rfl h
  | name =>
    refine ⟨fun h => .name h, fun h => ?_⟩
    cases h with
    | name h => exact h
    | empty _ h => exact absurd rfl h
    | part _ h => exact absurd rfl h
  | localPart => exact evalPart_iff hw v (by simp) (by simp)
  | domain => exact evalPart_iff hw v (by simp) (by simp)
  | user => exact evalPart_iff hw v (by simp) (by simp)
  | detail => exact evalPart_iff hw v (by simp) (by simp)

theorem addrsOf_iff (p : Parsed) (l : List Addr) : addrsOf p = some l ↔ AddrList p l := by
  cases p <;> simp [addrsOf, AddrList, eq_comm]

theorem addressValues_iff (x : Ext F) (part : AddrPart) (f : Field) (v : Str) :
    v ∈ addressValues x part f ↔ AddressValue x part f v := by
  have e : addressValues x part f =
      match addrsOf f.parsed with
      | some l => l.filterMap (evalAddr x part)
      | none =>
        match addrsOf (x.parseAddress (fieldText x f)) with
        | some l => l.filterMap (evalAddr x part)
        | none => [[]] := by
    unfold addressValues fieldText
    cases f.added <;> cases f.parsed <;> rfl
  rw [e]
  unfold AddressValue HasAddrs
  cases h1 : addrsOf f.parsed with
  | some l =>
    have h := (addrsOf_iff _ _).mp h1
    simp only [List.mem_filterMap]
    constructor
    · rintro ⟨a, h2, h3⟩
      exact .inl ⟨l, .inl h, a, h2, (evalAddr_iff ..).mp h3⟩
    · rintro (⟨l', h2 | h2, a, h3, h4⟩ | h2)
      · rw [(addrsOf_iff _ _).mpr h2] at h1
        cases h1
        exact ⟨a, h3, (evalAddr_iff ..).mpr h4⟩
      · exact absurd h (h2.1 l)
      · exact absurd (.inl h) (h2.1 l)
  | none =>
    have h : ∀ l, ¬ AddrList f.parsed l := fun l hl => by
      rw [(addrsOf_iff _ _).mpr hl] at h1; cases h1
    cases h5 : addrsOf (x.parseAddress (fieldText x f)) with
    | some l =>
      have h6 := (addrsOf_iff _ _).mp h5
      simp only [List.mem_filterMap]
      constructor
      · rintro ⟨a, h2, h3⟩
        exact .inl ⟨l, .inr ⟨h, h6⟩, a, h2, (evalAddr_iff ..).mp h3⟩
      · rintro (⟨l', h2 | h2, a, h3, h4⟩ | h2)
        · exact absurd h2 (h l')
        · rw [(addrsOf_iff _ _).mpr h2.2] at h5
          cases h5
          exact ⟨a, h3, (evalAddr_iff ..).mpr h4⟩
        · exact absurd (.inr ⟨h, h6⟩) (h2.1 l)
    | none =>
      have h6 : ∀ l, ¬ AddrList (x.parseAddress (fieldText x f)) l := fun l hl => by
        rw [(addrsOf_iff _ _).mpr hl] at h5; cases h5
      simp only [List.mem_singleton]
      constructor
      · rintro rfl
        exact .inr ⟨fun l hl => hl.elim (h l) fun hl => h6 l hl.2, rfl⟩
      · rintro (⟨l', h2 | h2, _⟩ | h2)
        · exact absurd h2 (h l')
        · exact absurd h2.2 (h6 l')
        · exact h2.2

/-- C39 for `address`. -/
theorem address_test {x : Ext F} (hx : x.Ok) (isNot : Bool) (c : Comparator) (m : Match)
    (hm : m.comparing) (part : AddrPart) (parts : List (Mime.Part N Field)) (t : Mime.Tree)
    (ht : Mime.Represents parts t) (names : List N) (index : Option Int) (anychild : Bool) (fuel : Nat)
    (hfuel : t.preorder.length < fuel) (keys : List (Val F))
    (hv : ∀ h v, Looked parts (searched anychild t) names index h → AddressValue x part h.value v →
      Charwise x c m v) :
    ∃ b caps, addressExec x isNot c m part parts t.id names index anychild fuel keys =
        some ⟨.bool (b ^^ isNot), caps⟩ ∧
      (b = true ↔ ∃ h v, Looked parts (searched anychild t) names index h ∧ AddressValue x part h.value v ∧
        ∃ k ∈ keys, Holds x c m (.text v) (.val k)) := by
  obtain ⟨found, hf, hl⟩ := found_iff parts t ht names index anychild fuel hfuel
  refine ⟨_, _, by rw [addressExec, hf, Option.map_some, addressTest_search _ _ _ hm], ?_⟩
  rw [search_iff hx]
  · constructor
    · rintro ⟨v, h1, k, h2, h3⟩
      obtain ⟨h, h4, h5⟩ := List.mem_flatMap.mp h1
      exact ⟨h, v, (hl h).mp h4, (addressValues_iff ..).mp h5, k, h2, h3⟩
    · rintro ⟨h, v, h4, h5, k, h2, h3⟩
      exact ⟨v, List.mem_flatMap.mpr ⟨h, (hl h).mpr h4, (addressValues_iff ..).mpr h5⟩, k, h2, h3⟩
  · intro v h1
    obtain ⟨h, h4, h5⟩ := List.mem_flatMap.mp h1
    exact hv h v ((hl h).mp h4) ((addressValues_iff ..).mp h5)

omit [DecidableEq N]

/-- The value of an envelope field for an `envelope` test: of addresses the requested part, if they have it (an
empty address is taken as it is); a date is shifted to the given time zone, if it is one. -/
inductive EnvelopeValue (x : Ext F) (part : AddrPart) (zone : Option (Str → Option Str)) :
    EnvName → Str → Str → Prop
  | null {n} : n ∈ [.from, .to, .orcpt] → EnvelopeValue x part zone n [] []
  | all {n s} : n ∈ [.from, .to, .orcpt] → part ∈ [.all, .name] → EnvelopeValue x part zone n s s
  | part {n s v} : n ∈ [.from, .to, .orcpt] → s ≠ [] → part ∉ [.all, .name] → x.part part s = some v →
      EnvelopeValue x part zone n s v
  | date {z s v} : zone = some z → z s = some v → EnvelopeValue x part zone .byTimeAbsolute s v
  | noDate {z s} : zone = some z → z s = none → EnvelopeValue x part zone .byTimeAbsolute s []
  | plainDate {s} : zone = none → EnvelopeValue x part zone .byTimeAbsolute s s
  | other {k s} : EnvelopeValue x part zone (.other k) s s

theorem envelopeValue_iff (x : Ext F) (part : AddrPart) (zone : Option (Str → Option Str)) (n : EnvName) (a : Val F)
    (v : Str) : envelopeValue x part zone n a = some v ↔ EnvelopeValue x part zone n (text x.flt a) v := by
  unfold envelopeValue
  generalize text x.flt a = s
  have key : n ∈ [EnvName.from, .to, .orcpt] →
      (evalString x part s = some v ↔ EnvelopeValue x part zone n s v) := by
    intro h
    unfold evalString
    by_cases hs : s = []
    · subst hs
      simp only [List.isEmpty_nil, if_true, Option.some.injEq]
      constructor
      · rintro rfl; exact .null h
      · intro h'
        cases h' with
        | null => rfl
        | all => rfl
        | part _ h => exact absurd rfl h
        | date => simp at h
        | noDate => rfl
        | plainDate => rfl
        | other => rfl
    · rw [if_neg (by simpa using hs)]
      constructor
      · intro h'
        cases part <;> first
          | (cases h'; exact .all h (by simp))
          | exact .part h hs (by simp) h'
      · intro h'
        cases h' with
        | null => exact absurd rfl hs
        | all _ hp => cases part <;> first | rfl | simp at hp
        | part _ _ hp hv => cases part <;> first | exact hv | simp at hp
        | date => simp at h
        | noDate => simp at h
        | plainDate => simp at h
        | other => simp at h
  cases n with
  | «from» => exact key (by simp)
  | «to» => exact key (by simp)
  | orcpt => exact key (by simp)
  | byTimeAbsolute =>
    cases zone with
    | none =>
      simp only [Option.some.injEq]
      constructor
      · rintro rfl; exact .plainDate rfl
      · intro h
        cases h with
        | null h => simp at h
        | all h => simp at h
        | part h => simp at h
        | date h => cases h
        | noDate h => cases h
        | plainDate => rfl
    | some z =>
      cases hz : z s with
      | none =>
        simp only [hz, Option.some.injEq]
        constructor
        · rintro rfl; exact .noDate rfl hz
        · intro h
          cases h with
          | null h => simp at h
          | all h => simp at h
          | part h => simp at h
          | date h h' => cases h; rw [hz] at h'; cases h'
          | noDate => rfl
          | plainDate h => cases h
      | some t =>
        simp only [hz, Option.some.injEq]
        constructor
        · rintro rfl; exact .date rfl hz
        · intro h
          cases h with
          | null h => simp at h
          | all h => simp at h
          | part h => simp at h
          | date h h' => cases h; rw [hz] at h'; cases h'; rfl
          | noDate h h' => cases h; rw [hz] at h'; cases h'
          | plainDate h => cases h
  | other k =>
    simp only [Option.some.injEq]
    constructor
    · rintro rfl; exact .other
    · intro h
      cases h with
      | null h => simp at h
      | all h => simp at h
      | part h => simp at h
      | other => rfl

/-- C39 for `envelope`. -/
theorem envelope_test {x : Ext F} (hx : x.Ok) (isNot : Bool) (c : Comparator) (m : Match) (hm : m.comparing)
    (part : AddrPart) (zone : Option (Str → Option Str)) (names : List EnvName) (env : List (EnvName × Val F))
    (keys : List (Val F))
    (hv : ∀ e ∈ env, ∀ v, EnvelopeValue x part zone e.1 (text x.flt e.2) v → Charwise x c m v) :
    ∃ b caps, envelopeTest x isNot c m part zone names env keys = ⟨.bool (b ^^ isNot), caps⟩ ∧
      (b = true ↔ ∃ e ∈ env, e.1 ∈ names ∧ ∃ v, EnvelopeValue x part zone e.1 (text x.flt e.2) v ∧
        ∃ k ∈ keys, Holds x c m (.text v) (.val k)) := by
  refine ⟨(search x c m ((env.filter fun e => names.contains e.1).filterMap fun e =>
    envelopeValue x part zone e.1 e.2) keys).2, (search x c m ((env.filter fun e => names.contains e.1).filterMap
      fun e => envelopeValue x part zone e.1 e.2) keys).1, by cases m <;> first | rfl | exact hm.elim, ?_⟩
  rw [search_iff hx]
  · constructor
    · rintro ⟨v, h1, k, h2, h3⟩
      obtain ⟨e, h4, h5⟩ := List.mem_filterMap.mp h1
      obtain ⟨h6, h7⟩ := List.mem_filter.mp h4
      exact ⟨e, h6, by simpa using h7, v, (envelopeValue_iff ..).mp h5, k, h2, h3⟩
    · rintro ⟨e, h6, h7, v, h5, k, h2, h3⟩
      exact ⟨v, List.mem_filterMap.mpr ⟨e, List.mem_filter.mpr ⟨h6, by simpa using h7⟩,
        (envelopeValue_iff ..).mpr h5⟩, k, h2, h3⟩
  · intro v h1
    obtain ⟨e, h4, h5⟩ := List.mem_filterMap.mp h1
    exact hv e (List.mem_filter.mp h4).1 v ((envelopeValue_iff ..).mp h5)

/-- The comparison `hasflag` makes: `:regex` is treated as `:matches`. -/
def hasflagMatch : Match → Match
  | .regex cp => .matches cp
  | m => m

/-- C39 for `hasflag`: the test is true exactly if a flag of one of the variables matches one of the flags
given as keys (`Flags.tokens`, see `Flags.tokens_single` and `Flags.tokens_list`). -/
theorem hasflag_test {x : Ext F} (hx : x.Ok) (isNot : Bool) (c : Comparator) (m : Match) (hm : m.comparing)
    (vars keys : List (Val F))
    (hv : ∀ a ∈ vars, ∀ f ∈ Flags.splitSp (text x.flt a), Charwise x c (hasflagMatch m) f) :
    ∃ b caps, hasflagTest x isNot c m vars keys = ⟨.bool (b ^^ isNot), caps⟩ ∧
      (b = true ↔ ∃ a ∈ vars, a ≠ .str [] ∧ ∃ f ∈ Flags.splitSp (text x.flt a),
        ∃ k ∈ Flags.tokens x.ws (keys.map (text x.flt)), Holds x c (hasflagMatch m) (.text f) (.text k)) := by
  have he : ∀ a : Val F, isEmpty a = true ↔ a = .str [] := by
    intro a
    cases a <;> simp [isEmpty]
  refine ⟨(each (fun k => each (fun fs => each (fun f => attempt x c (hasflagMatch m) (.text f) (.text k)) fs)
    ((vars.filter fun v => !isEmpty v).map fun v => Flags.splitSp (text x.flt v)))
      (Flags.tokens x.ws (keys.map (text x.flt))) []).2,
    (each (fun k => each (fun fs => each (fun f => attempt x c (hasflagMatch m) (.text f) (.text k)) fs)
    ((vars.filter fun v => !isEmpty v).map fun v => Flags.splitSp (text x.flt v)))
      (Flags.tokens x.ws (keys.map (text x.flt))) []).1, by cases m <;> first | rfl | exact hm.elim, ?_⟩
  rw [each_any _ (fun k => ((vars.filter fun v => !isEmpty v).map fun v => Flags.splitSp (text x.flt v)).any fun fs =>
    fs.any fun f => verdict x c (hasflagMatch m) (.text f) (.text k))
    (fun k s => each_any _ (fun (fs : List Str) => fs.any fun f => verdict x c (hasflagMatch m) (.text f) (.text k))
      (fun fs s => each_any _ (fun f => verdict x c (hasflagMatch m) (.text f) (.text k))
        (fun f s => attempt_verdict x c (hasflagMatch m) (.text f) (.text k) s) _ _) _ _)]
  simp only [List.any_eq_true, List.mem_map, List.mem_filter]
  constructor
  · rintro ⟨k, hk, _, ⟨a, ⟨h1, h2⟩, rfl⟩, f, h3, h4⟩
    refine ⟨a, h1, fun h => ?_, f, h3, k, hk, (verdict_iff hx c _ (.text f) _ (hv a h1 f h3)).mp h4⟩
    rw [(he a).mpr h] at h2
    cases h2
  · rintro ⟨a, h1, h2, f, h3, k, hk, h4⟩
    refine ⟨k, hk, _, ⟨a, ⟨h1, ?_⟩, rfl⟩, f, h3, (verdict_iff hx c _ (.text f) _ (hv a h1 f h3)).mpr h4⟩
    cases h5 : isEmpty a
    · rfl
    · exact absurd ((he a).mp h5) h2

/-! ### The string test -/

theorem stringKey_iff {x : Ext F} (hx : x.Ok) (emptyIsNull : Bool) (c : Comparator) (m : Match) (key : Val F)
    (sources : List (Val F)) (hv : ∀ a ∈ sources, Charwise x c m (text x.flt a)) (s : Caps × Bool) (hs : s.2 = false) :
    (stringKey x emptyIsNull c m key sources s).2 = true ↔
      ∃ a ∈ sources, (emptyIsNull = true → a ≠ .str []) ∧ Holds x c m (.val a) (.val key) := by
  have he : ∀ a : Val F, (!emptyIsNull || !isEmpty a) = true ↔ (emptyIsNull = true → a ≠ .str []) := by
    intro a
    cases emptyIsNull <;> cases a <;> simp [isEmpty]
  induction sources generalizing s with
  | nil => simp [stringKey, hs]
  | cons a as ih =>
    have hv' : ∀ b ∈ as, Charwise x c m (text x.flt b) := fun b hb => hv b (List.mem_cons_of_mem _ hb)
    have h1 := verdict_iff hx c m (.val a) (.val key) (hv a List.mem_cons_self)
    simp only [stringKey]
    by_cases h : (!emptyIsNull || !isEmpty a) = true
    · rw [if_pos h]
      have h2 := attempt_verdict x c m (.val a) (.val key) s.1
      cases ha : attempt x c m (.val a) (.val key) s.1 with
      | mk caps b =>
        rw [ha] at h2
        cases b
        · simp only
          simp only at h2
          refine (ih hv' (caps, false) rfl).trans ?_
          constructor
          · rintro ⟨b, h3, h4⟩; exact ⟨b, List.mem_cons_of_mem _ h3, h4⟩
          · rintro ⟨b, h3, h4, h5⟩
            rcases List.mem_cons.mp h3 with rfl | h3
            · rw [← h1, ← h2] at h5; cases h5
            · exact ⟨b, h3, h4, h5⟩
        · simp only
          simp only at h2
          exact iff_of_true trivial ⟨a, List.mem_cons_self, (he a).mp h, h1.mp h2.symm⟩
    · rw [if_neg h]
      refine (ih hv' s hs).trans ?_
      constructor
      · rintro ⟨b, h3, h4⟩; exact ⟨b, List.mem_cons_of_mem _ h3, h4⟩
      · rintro ⟨b, h3, h4, h5⟩
        rcases List.mem_cons.mp h3 with rfl | h3
        · exact absurd ((he b).mpr h4) h
        · exact ⟨b, h3, h4, h5⟩

theorem stringTest_fold (x : Ext F) (emptyIsNull isNot : Bool) (c : Comparator) (m : Match) (hm : m.comparing)
    (sources keys : List (Val F)) :
    stringTest x emptyIsNull isNot c m sources keys =
      ⟨.bool ((keys.foldl (fun s key => stringKey x emptyIsNull c m key sources s) ([], false)).2 ^^ isNot),
        (keys.foldl (fun s key => stringKey x emptyIsNull c m key sources s) ([], false)).1⟩ := by
  cases m <;> first | rfl | exact hm.elim

/-- C39 for `string` and `environment`, with a single key.  (With several keys it is false:
`string_last_key`.) -/
theorem string_test_partial {x : Ext F} (hx : x.Ok) (emptyIsNull isNot : Bool) (c : Comparator) (m : Match)
    (hm : m.comparing) (sources : List (Val F)) (key : Val F)
    (hv : ∀ a ∈ sources, Charwise x c m (text x.flt a)) :
    ∃ b caps, stringTest x emptyIsNull isNot c m sources [key] = ⟨.bool (b ^^ isNot), caps⟩ ∧
      (b = true ↔ ∃ a ∈ sources, (emptyIsNull = true → a ≠ .str []) ∧ Holds x c m (.val a) (.val key)) := by
  refine ⟨_, _, stringTest_fold x emptyIsNull isNot c m hm sources [key], ?_⟩
  exact stringKey_iff hx emptyIsNull c m key sources hv ([], false) rfl

theorem stringKey_skip (x : Ext F) (emptyIsNull : Bool) (c : Comparator) (m : Match) (key : Val F)
    (sources : List (Val F)) (h : ∀ a ∈ sources, (!emptyIsNull || !isEmpty a) = false) (s : Caps × Bool) :
    stringKey x emptyIsNull c m key sources s = s := by
  induction sources generalizing s with
  | nil => rfl
  | cons a as ih =>
    simp only [stringKey, h a List.mem_cons_self, Bool.false_eq_true, if_false]
    exact ih (fun b hb => h b (List.mem_cons_of_mem _ hb)) s

theorem stringKey_fresh (x : Ext F) (emptyIsNull : Bool) (c : Comparator) (m : Match) (key : Val F)
    (sources : List (Val F)) (h : ∃ a ∈ sources, (!emptyIsNull || !isEmpty a) = true) (s : Caps × Bool) :
    stringKey x emptyIsNull c m key sources s = stringKey x emptyIsNull c m key sources (s.1, false) := by
  induction sources generalizing s with
  | nil => obtain ⟨a, h, _⟩ := h; cases h
  | cons a as ih =>
    simp only [stringKey]
    by_cases h1 : (!emptyIsNull || !isEmpty a) = true
    · rw [if_pos h1, if_pos h1]
    · rw [if_neg h1, if_neg h1]
      refine ih ?_ s
      obtain ⟨b, hb, h2⟩ := h
      rcases List.mem_cons.mp hb with rfl | hb
      · exact absurd h2 h1
      · exact ⟨b, hb, h2⟩

/-- What `string` and `environment` really test if there are several keys: the last key alone decides. -/
theorem string_last_key {x : Ext F} (hx : x.Ok) (emptyIsNull isNot : Bool) (c : Comparator) (m : Match)
    (hm : m.comparing) (sources keys : List (Val F)) (key : Val F)
    (hv : ∀ a ∈ sources, Charwise x c m (text x.flt a)) :
    ∃ b caps, stringTest x emptyIsNull isNot c m sources (keys ++ [key]) = ⟨.bool (b ^^ isNot), caps⟩ ∧
      (b = true ↔ ∃ a ∈ sources, (emptyIsNull = true → a ≠ .str []) ∧ Holds x c m (.val a) (.val key)) := by
  refine ⟨_, _, stringTest_fold x emptyIsNull isNot c m hm sources (keys ++ [key]), ?_⟩
  rw [List.foldl_append, List.foldl_cons, List.foldl_nil]
  by_cases h : ∃ a ∈ sources, (!emptyIsNull || !isEmpty a) = true
  · rw [stringKey_fresh x emptyIsNull c m key sources h]
    exact stringKey_iff hx emptyIsNull c m key sources hv _ rfl
  · have h' : ∀ a ∈ sources, (!emptyIsNull || !isEmpty a) = false := fun a ha => by
      cases he : (!emptyIsNull || !isEmpty a)
      · rfl
      · exact absurd ⟨a, ha, he⟩ h
    have e : keys.foldl (fun s key => stringKey x emptyIsNull c m key sources s) ([], false) = ([], false) := by
      induction keys with
      | nil => rfl
      | cons k ks ih => rw [List.foldl_cons, stringKey_skip x emptyIsNull c m k sources h']; exact ih
    rw [e]
    exact stringKey_iff hx emptyIsNull c m key sources hv _ rfl

/-- C39 is false for `string`: `string :is "a" ["a", "b"]` is false although the source matches the first key. -/
theorem string_first_key_ignored (x : Ext F) :
    stringTest x false false .octet .is [.str ['a']] [.str ['a'], .str ['b']] = ⟨.bool false, []⟩ ∧
      Holds x .octet .is (.val (.str ['a'])) (.val (.str ['a'])) :=
  ⟨rfl, rfl⟩

/-- The match variables can even be set by a key that does not decide. -/
theorem string_first_key_captures (x : Ext F) :
    stringTest x false false .octet (.matches 2) [.str ['a']] [.str ['*'], .str ['b']] =
      ⟨.bool false, [(1, ['a'])]⟩ := by
  have h1 : Glob.globCapture x.cm false (Glob.compile x.cm ['*'] false) ['a'] 2 = some (some [(1, ['a'])]) := by
    rw [show Glob.compile x.cm ['*'] false = [.many 1] by simp [Glob.compile, Glob.compileGo]]
    rfl
  have h2 : Glob.globCapture x.cm false (Glob.compile x.cm ['b'] false) ['a'] 2 = some none := by
    rw [show Glob.compile x.cm ['b'] false = [.char 'b'] by simp [Glob.compile, Glob.compileGo, Glob.literal]]
    rfl
  have e : (Comparator.octet == Comparator.asciiCaseMap) = false := rfl
  simp [stringTest, stringKey, attempt, Comparator.glob, Item.str, text, e, h1, h2]

/-! ### Which match variables are set -/

/-- The groups of a `:regex` test that become match variables: the requested ones among the first 64, if they took
part in the match, from the highest to the lowest. -/
theorem regex_groups (g : Nat → Option Str) (cp : Nat) : ∀ n,
    (∀ i t, (i, t) ∈ regexCaps g cp n ↔ i < n ∧ cp.testBit i = true ∧ g i = some t) ∧
      ((regexCaps g cp n).map Prod.fst).Pairwise (· > ·)
  | 0 => by simp [regexCaps]
  | n + 1 => by
    obtain ⟨h1, h2⟩ := regex_groups g cp n
    have hb : ∀ i t, (i, t) ∈ (if cp.testBit n then
        match g n with
        | some t => [(n, t)]
        | none => []
      else []) ↔ i = n ∧ cp.testBit i = true ∧ g i = some t := by
      intro i t
      by_cases hc : cp.testBit n = true
      · rw [if_pos hc]
        cases hg : g n with
        | none =>
          simp only [List.not_mem_nil, false_iff]
          rintro ⟨rfl, _, h⟩
          rw [hg] at h; cases h
        | some t' =>
          simp only [List.mem_singleton, Prod.mk.injEq]
          constructor
          · rintro ⟨rfl, rfl⟩; exact ⟨rfl, hc, hg⟩
          · rintro ⟨rfl, _, h⟩
            rw [hg] at h; cases h; exact ⟨rfl, rfl⟩
      · rw [if_neg hc]
        simp only [List.not_mem_nil, false_iff]
        rintro ⟨rfl, h, _⟩
        exact hc h
    refine ⟨fun i t => ?_, ?_⟩
    · rw [regexCaps, List.mem_append]
      refine Iff.trans (or_congr (hb i t) (h1 i t)) ?_
      constructor
      · rintro (⟨rfl, h⟩ | ⟨h, h'⟩)
        · exact ⟨by omega, h⟩
        · exact ⟨by omega, h'⟩
      · rintro ⟨h, h'⟩
        by_cases e : i = n
        · exact .inl ⟨e, h'⟩
        · exact .inr ⟨by omega, h'⟩
    · rw [regexCaps, List.map_append, List.pairwise_append]
      refine ⟨?_, h2, ?_⟩
      · by_cases hc : cp.testBit n = true
        · rw [if_pos hc]
          cases g n <;> simp
        · rw [if_neg hc]; simp
      · intro a ha b hb'
        obtain ⟨⟨a', t⟩, h3, rfl⟩ := List.mem_map.mp ha
        obtain ⟨⟨b', u⟩, h4, rfl⟩ := List.mem_map.mp hb'
        have := ((hb a' t).mp h3).1
        have := ((h1 b' u).mp h4).1
        show a' > b'
        omega

/-- The text of a list: the texts of its items, of which leading empty ones are dropped, separated by line breaks; an
item that is itself a list counts as empty. -/
theorem text_list (A : Flt F) (l : List (Val F)) :
    text A (.arr l) = List.intercalate ['\r', '\n']
      ((l.map fun v => match v with | .arr _ => [] | v => text A v).dropWhile (· = [])) := by
  have step : ∀ (acc : Str) (v : Val F), addItem A acc v =
      (if acc = [] then [] else acc ++ ['\r', '\n']) ++ (match v with | .arr _ => [] | v => text A v) := by
    intro acc v
    cases acc <;> cases v <;> simp [addItem, text]
  have tail : ∀ (l : List (Val F)) (acc : Str), acc ≠ [] → l.foldl (addItem A) acc =
      List.intercalate ['\r', '\n'] (acc :: l.map fun v => match v with | .arr _ => [] | v => text A v) := by
    intro l
    induction l with
    | nil => intro acc _; simp [List.intercalate]
    | cons v l ih =>
      intro acc h
      rw [List.foldl_cons, ih _ (by rw [step, if_neg h]; simp [h]), step, if_neg h]
      cases l <;> simp [List.intercalate]
  show l.foldl (addItem A) [] = _
  induction l with
  | nil => simp [List.intercalate]
  | cons v l ih =>
    rw [List.foldl_cons, step, if_pos rfl, List.nil_append, List.map_cons]
    by_cases hv : (match v with | .arr _ => [] | v => text A v) = []
    · rw [hv, List.dropWhile_cons_of_pos (by simp), ih]
    · rw [List.dropWhile_cons_of_neg (by simpa using hv), tail l _ hv]

example (A : Flt F) : text A (.arr [.str [], .str ['a'], .str [], .arr [.str ['c']], .str ['b']]) =
    ['a', '\r', '\n', '\r', '\n', '\r', '\n', 'b'] := rfl

/-- The captures of `:matches` and `:regex` come from the first value that matches a key, and for it from the first
such key; if nothing matches, no match variable is touched.  For `:matches` the captured texts are those of C02 and
C03, for `:regex` the requested groups. -/
theorem captures_first {x : Ext F} (hx : x.Ok) (c : Comparator) (m : Match) (vals : List Str) (keys : List (Val F))
    (hv : ∀ v ∈ vals, Charwise x c m v) :
    ((search x c m vals keys).2 = false ∧ (search x c m vals keys).1 = []) ∨
    ∃ pre v post kpre k kpost, vals = pre ++ v :: post ∧ keys = kpre ++ k :: kpost ∧
      (∀ u ∈ pre, ∀ k' ∈ keys, ¬ Holds x c m (.text u) (.val k')) ∧
      (∀ k' ∈ kpre, ¬ Holds x c m (.text v) (.val k')) ∧ Holds x c m (.text v) (.val k) ∧
      (search x c m vals keys).2 = true ∧
      match m with
      | .matches cp => if cp = 0 then (search x c m vals keys).1 = [] else
          Glob.globCapture x.cm (c = .asciiCaseMap) (Glob.compile x.cm (text x.flt k) (c = .asciiCaseMap)) v cp =
            some (some (search x c m vals keys).1)
      | .regex cp => if cp = 0 then (search x c m vals keys).1 = [] else
          ∃ g, x.captures (text x.flt k) v = some g ∧
            (∀ i t, (i, t) ∈ (search x c m vals keys).1 ↔ i < 64 ∧ cp.testBit i = true ∧ g i = some t) ∧
            ((search x c m vals keys).1.map Prod.fst).Pairwise (· > ·)
      | _ => (search x c m vals keys).1 = [] := by
  cases h : (search x c m vals keys).2 with
  | false => exact .inl ⟨rfl, by rw [search_none x c m vals keys h]⟩
  | true =>
    obtain ⟨pre, v, post, kpre, k, kpost, h1, h2, h3, h4, h5, h6⟩ := search_first x c m vals keys h
    have hmem : v ∈ vals := by rw [h1]; simp
    have hpre : ∀ u ∈ pre, u ∈ vals := fun u hu => by rw [h1]; simp [hu]
    refine .inr ⟨pre, v, post, kpre, k, kpost, h1, h2, fun u hu k' hk hh => ?_, fun k' hk hh => ?_,
      (verdict_iff hx c m (.text v) _ (hv v hmem)).mp h5, rfl, ?_⟩
    · rw [← verdict_iff hx c m (.text u) _ (hv u (hpre u hu)), h3 u hu k' hk] at hh; cases hh
    · rw [← verdict_iff hx c m (.text v) _ (hv v hmem), h4 k' hk] at hh; cases hh
    · rw [h6] at h ⊢
      cases m with
      | «matches» cp =>
        have e : (c == Comparator.asciiCaseMap) = decide (c = .asciiCaseMap) := rfl
        simp only [attempt, Comparator.glob, Item.str, e] at h ⊢
        by_cases h0 : cp = 0
        · simp [h0]
        · simp only [h0, if_false] at h ⊢
          split at h <;> simp_all
      | regex cp =>
        simp only [attempt, regexMatch, Item.str] at h ⊢
        by_cases h0 : cp = 0
        · simp [h0]
        · simp only [h0, if_false] at h ⊢
          split at h
          · rename_i g hg
            exact ⟨g, hg, regex_groups g cp 64⟩
          · cases h
      | is => rfl
      | contains => rfl
      | value r => rfl
      | count r => rfl
      | list => rfl

/-! ### Counting -/

theorem countTest_iff {x : Ext F} (hx : x.Ok) (r : Rel) (n : Nat) (keys : List (Val F)) :
    countTest x r n keys = true ↔ ∃ k ∈ keys, NumSat x.flt (.int n) (number x k) r := by
  simp only [countTest, List.any_eq_true, relNum_iff hx.ieee]

section
variable [DecidableEq N]

/-- `header :count` on the current part compares the number of headers with one of the given names with each key. -/
theorem header_count {x : Ext F} (hx : x.Ok) (plain : N → Bool) (isNot : Bool) (c : Comparator) (r : Rel)
    (parts : List (Mime.Part N Field)) (part : Nat) (p : Mime.Part N Field) (hp : parts[part]? = some p)
    (names : List N) (fuel : Nat) (keys : List (Val F)) :
    ∃ b, headerExec x plain isNot c (.count r) .none parts part names none false (fuel + 2) keys =
        some ⟨.bool (b ^^ isNot), []⟩ ∧
      (b = true ↔ ∃ k ∈ keys,
        NumSat x.flt (.int ((names.map fun name => Mime.occurrences name p.headers).sum : Nat)) (number x k) r) := by
  have hlt : part < parts.length := (List.getElem?_eq_some_iff.mp hp).1
  have hv := Mime.no_anychild parts part hlt fuel
  have hf : Mime.findHeaders parts part names none false (fuel + 2) = some (names.flatMap fun name =>
      (Mime.selectHeaders p.headers none name).map fun h => (h.1, part, h.2)) := by
    simp [Mime.findHeaders, hv, hp]
  refine ⟨_, by rw [headerExec, hf]; rfl, ?_⟩
  rw [countTest_iff hx]
  have e : ∀ name : N, (Mime.selectHeaders p.headers none name).length = Mime.occurrences name p.headers := by
    intro name
    rw [← Mime.countP_zipIdx name p.headers 0, List.countP_eq_length_filter]
    rfl
  suffices h : (List.map (fun h : Mime.Header N Field => headerCount x .none h.value)
      (List.map (fun x => x.1) (names.flatMap fun name =>
        (Mime.selectHeaders p.headers none name).map fun h => (h.1, part, h.2)))).sum =
          (names.map fun name => Mime.occurrences name p.headers).sum by
    rw [h]
  clear hf
  induction names with
  | nil => rfl
  | cons n ns ih =>
    simp only [List.flatMap_cons, List.map_append, List.sum_append, List.map_cons, List.sum_cons, ih]
    congr 1
    rw [← e n, List.map_map]
    generalize Mime.selectHeaders p.headers none n = l
    induction l with
    | nil => rfl
    | cons a as ih =>
      simp only [List.map_cons, List.sum_cons, List.length_cons, ih]
      simp [headerCount]
      omega
end

/-- `string :count` compares the number of non-empty sources with each key. -/
theorem string_count {x : Ext F} (hx : x.Ok) (isNot : Bool) (c : Comparator) (r : Rel) (sources keys : List (Val F)) :
    ∃ b, stringTest x false isNot c (.count r) sources keys = ⟨.bool (b ^^ isNot), []⟩ ∧
      (b = true ↔ ∃ k ∈ keys, NumSat x.flt (.int (sources.countP fun a => !isEmpty a : Nat)) (number x k) r) := by
  refine ⟨_, rfl, ?_⟩
  rw [← countTest_iff hx, List.countP_eq_length_filter]
  simp

/-! ### External lists -/

theorem distinct_go (vals acc : List Str) (h : acc.Nodup) :
    (vals.foldl (fun acc v => if !v.isEmpty && !acc.any (· == v) then acc ++ [v] else acc) acc).Nodup ∧
    ∀ v, v ∈ vals.foldl (fun acc v => if !v.isEmpty && !acc.any (· == v) then acc ++ [v] else acc) acc ↔
      v ∈ acc ∨ v ∈ vals ∧ v ≠ [] := by
  induction vals generalizing acc with
  | nil => simp [h]
  | cons a as ih =>
    rw [List.foldl_cons]
    by_cases hc : (!a.isEmpty && !acc.any (· == a)) = true
    · rw [if_pos hc]
      have ha : a ≠ [] ∧ a ∉ acc := by
        simp only [Bool.and_eq_true, Bool.not_eq_true', List.isEmpty_eq_false_iff, List.any_eq_false, beq_iff_eq] at hc
        exact ⟨hc.1, fun h => hc.2 a h rfl⟩
      obtain ⟨h1, h2⟩ := ih (acc ++ [a]) (by
        rw [List.nodup_append]
        refine ⟨h, by simp, ?_⟩
        intro b hb d hd hbd
        rw [List.mem_singleton.mp hd] at hbd
        exact ha.2 (hbd ▸ hb))
      refine ⟨h1, fun v => ?_⟩
      rw [h2]
      simp only [List.mem_append, List.mem_cons, List.not_mem_nil, or_false]
      constructor
      · rintro ((h | rfl) | h)
        · exact .inl h
        · exact .inr ⟨.inl rfl, ha.1⟩
        · exact .inr ⟨.inr h.1, h.2⟩
      · rintro (h | ⟨rfl | h, h'⟩)
        · exact .inl (.inl h)
        · exact .inl (.inr rfl)
        · exact .inr ⟨h, h'⟩
    · rw [if_neg hc]
      have ha : a = [] ∨ a ∈ acc := by
        simp only [Bool.and_eq_true, not_and_or, Bool.not_eq_true] at hc
        rcases hc with h | h
        · exact .inl (by simpa using h)
        · exact .inr (by simpa using h)
      obtain ⟨h1, h2⟩ := ih acc h
      refine ⟨h1, fun v => ?_⟩
      rw [h2]
      simp only [List.mem_cons]
      constructor
      · rintro (h | h)
        · exact .inl h
        · exact .inr ⟨.inr h.1, h.2⟩
      · rintro (h | ⟨rfl | h, h'⟩)
        · exact .inl h
        · rcases ha with ha | ha
          · exact absurd ha h'
          · exact .inl ha
        · exact .inr ⟨h, h'⟩

/-- `:list` asks the host about the non-empty values, each once; without any the test is false. -/
theorem list_test (x : Ext F) (isNot : Bool) (c : Comparator) (vals : List Str) (keys : List (Val F)) :
    ((∀ v ∈ vals, v = []) ∧ listTest x isNot c vals keys = ⟨.bool isNot, []⟩) ∨
    ∃ asked : List Str, asked ≠ [] ∧ asked.Nodup ∧ (∀ v, v ∈ asked ↔ v ∈ vals ∧ v ≠ []) ∧
      listTest x isNot c vals keys = ⟨.listContains (keys.map (text x.flt)) asked c isNot, []⟩ := by
  obtain ⟨h1, h2⟩ := distinct_go vals [] List.nodup_nil
  simp only [List.not_mem_nil, false_or] at h2
  by_cases h : (distinct vals).isEmpty = true
  · left
    refine ⟨fun v hv => ?_, by rw [listTest, if_pos h]; simp⟩
    by_contra hne
    have := (h2 v).mpr ⟨hv, hne⟩
    have e : distinct vals = [] := by simpa using h
    unfold distinct at e
    rw [e] at this
    cases this
  · right
    exact ⟨distinct vals, by simpa using h, h1, h2, by rw [listTest, if_neg h]⟩

/-! ## C40 -/

/-- C40: `ne` is the negation of `eq`; unless one side is not a number (NaN) exactly one of `lt`, `eq` and `gt` holds,
`ge` is the negation of `lt` and `le` the negation of `gt`; between integers the relations are the usual ones; and
exchanging the sides exchanges the relations.

Missing: the rank of values that are not numerals (`numeral_rank_partial`, `not_a_numeral_is_zero`), and NaN
(`nan_unordered`). -/
theorem relational_partial {A : Flt F} (hA : Ieee A) (a b : Expr.Num F) :
    (Rel.num A .ne a b = !Rel.num A .eq a b) ∧
    (a.cmp A b ≠ none →
      Rel.num A .ge a b = !Rel.num A .lt a b ∧ Rel.num A .le a b = !Rel.num A .gt a b ∧
      ((Rel.num A .lt a b = true ∧ Rel.num A .eq a b = false ∧ Rel.num A .gt a b = false) ∨
       (Rel.num A .lt a b = false ∧ Rel.num A .eq a b = true ∧ Rel.num A .gt a b = false) ∨
       (Rel.num A .lt a b = false ∧ Rel.num A .eq a b = false ∧ Rel.num A .gt a b = true))) ∧
    Rel.num A .gt a b = Rel.num A .lt b a ∧ Rel.num A .ge a b = Rel.num A .le b a ∧
    Rel.num A .eq a b = Rel.num A .eq b a := by
  have h := numEq_cmp hA a b
  have h' := numEq_cmp hA b a
  have hs := Expr.num_swap hA a b
  refine ⟨rfl, ?_, ?_⟩
  · intro hn
    simp only [Rel.num, Rel.cmp]
    cases hc : a.cmp A b with
    | none => exact absurd hc hn
    | some o =>
      rw [hc] at h
      cases he : numEq A a b <;> rw [he] at h <;> cases o <;> simp_all <;> decide
  · rw [hs] at h'
    simp only [Rel.num, Rel.cmp, hs]
    cases hc : a.cmp A b with
    | none =>
      rw [hc] at h h'
      cases he : numEq A a b <;> rw [he] at h <;> cases he' : numEq A b a <;> rw [he'] at h' <;> simp_all
    | some o =>
      rw [hc] at h h'
      cases he : numEq A a b <;> rw [he] at h <;> cases he' : numEq A b a <;> rw [he'] at h' <;> cases o <;>
        simp_all [Ordering.swap] <;> decide

/-- C40 for integers: the usual relations. -/
theorem relational_integers (A : Flt F) (a b : Int) (r : Rel) :
    r.num A (.int a) (.int b) = true ↔
      match r with
      | .gt => a > b
      | .ge => a ≥ b
      | .lt => a < b
      | .le => a ≤ b
      | .eq => a = b
      | .ne => a ≠ b := by
  have h : ((Expr.Num.int a : Expr.Num F).cmp A (.int b)) = some (Expr.cmpInt a b) := rfl
  have he : numEq A (.int a : Expr.Num F) (.int b) = (a == b) := rfl
  unfold Expr.cmpInt at h
  by_cases h1 : a < b
  · rw [if_pos h1] at h
    cases r <;> simp only [Rel.num, Rel.cmp, h, he] <;> simp <;> omega
  · rw [if_neg h1] at h
    by_cases h2 : b < a
    · rw [if_pos h2] at h
      cases r <;> simp only [Rel.num, Rel.cmp, h, he] <;> simp <;> omega
    · rw [if_neg h2] at h
      cases r <;> simp only [Rel.num, Rel.cmp, h, he] <;> simp <;> omega

/-- C40: a key or string source that is not a numeral ranks with the largest number (infinity).

Missing: header, address, envelope values and flags, for which it is false (`not_a_numeral_is_zero`). -/
theorem numeral_rank_partial (x : Ext F) (hinf : ∀ y, x.flt.cmp x.inf y ≠ some .lt) (s : Str)
    (h1 : x.flt.parseInt s = none) (h2 : x.flt.parseFlt s = none) (y : Expr.Num F) :
    ((Item.val (.str s)).number x).cmp x.flt y ≠ some .lt := by
  have : (Item.val (.str s)).number x = .flt x.inf := by
    have e : numberChecked x.flt (.str s) = none := by
      simp only [numberChecked, h1, h2]
      split
      · rfl
      · split <;> rfl
    simp only [Item.number, number, e]
  rw [this]
  cases y with
  | int n => exact hinf _
  | flt f => exact hinf _

/-- C40 is false for values of the message: what is not a numeral ranks as zero, so that a `Subject` of `abc` is less
than `1` (and `:is` `0`). -/
theorem not_a_numeral_is_zero (x : Ext F) (s k : Str) (hs : x.flt.parseFlt s = none) (hk : k ≠ []) (hd : '.' ∉ k)
    (hk1 : x.flt.parseInt k = some 1) (h01 : x.flt.cmp x.flt.zero (x.flt.ofInt 1) = some .lt) :
    Comparator.relational x .asciiNumeric .lt (.text s) (.val (.str k)) = true := by
  have e : numberChecked x.flt (.str k) = some (.int 1) := by
    simp only [numberChecked, hk1]
    rw [if_neg (by simpa using hk), if_neg (by simpa using hd)]
    rfl
  simp [Comparator.relational, Item.number, number, e, hs, Rel.num, Rel.cmp, Expr.Num.cmp, h01]

/-- C40 is false for NaN (which the header value `nan` is read as): it is neither less than nor greater than nor
equal to anything. -/
theorem nan_unordered (x : Ext F) (nan : F) (hn : ∀ y, x.flt.cmp nan y = none) (he : ∀ y, x.flt.eq nan y = false)
    (s : Str) (hs : x.flt.parseFlt s = some nan) (k : Item F) :
    Comparator.relational x .asciiNumeric .ge (.text s) k = false ∧
    Comparator.relational x .asciiNumeric .lt (.text s) k = false ∧
    Comparator.relational x .asciiNumeric .le (.text s) k = false ∧
    Comparator.relational x .asciiNumeric .gt (.text s) k = false ∧
    Comparator.is x .asciiNumeric (.text s) k = false := by
  have e : (Item.text s : Item F).number x = .flt nan := by simp [Item.number, hs]
  have h1 : ∀ b : Expr.Num F, (Expr.Num.flt nan).cmp x.flt b = none := by
    intro b; cases b <;> simp [Expr.Num.cmp, hn]
  have h2 : ∀ b : Expr.Num F, numEq x.flt (Expr.Num.flt nan) b = false := by
    intro b; cases b <;> simp [numEq, he]
  simp [Comparator.relational, Comparator.is, e, Rel.num, Rel.cmp, h1, h2]

/-! ## Examples -/

/-- Numerals of decimal digits. -/
def exParse (s : Str) : Option Int :=
  if s.isEmpty then none
  else s.foldl (fun n c => n.bind fun n => if 48 ≤ c.toNat ∧ c.toNat ≤ 57 then some (10 * n + (c.toNat - 48 : Nat)) else none)
    (some 0)

/-- Libraries for the examples: numbers are integers, infinity is a large one; only `A` is an upper case letter; regular
expressions are literal texts; addresses are read from non-empty texts. -/
def exExt : Ext Int where
  flt := {
    zero := 0, add := (· + ·), sub := (· - ·), mul := (· * ·), div := (· / ·), neg := (- ·), ofInt := id,
    eq := fun a b => a == b, cmp := fun a b => some (Expr.cmpInt a b), toNat := Int.toNat, parseInt := exParse,
    parseNat := fun s => (exParse s).map Int.toNat, parseFlt := exParse, showInt := fun _ => [], showFlt := fun _ => [] }
  inf := 1000000
  cm := Glob.demoCase
  ws := Flags.asciiWs
  isMatch p v := p == v
  captures p v := if p == v then some fun _ => none else none
  utf8 s := s.map fun c => UInt8.ofNat c.toNat
  parseUnstructured b := .text (b.map fun u => Char.ofNat u.toNat)
  parseContentType _ := .other
  parseAddress _ := .other
  part _ s := some s
  eqIgnoreCase a b := a == b

theorem exOk : exExt.Ok where
  ieee := {
    eq_cmp := fun a b => by simp [exExt, Expr.cmpInt_eq]
    swap := fun a b => by simp [exExt, Expr.cmpInt_swap a b] }
  lowerEmpty := rfl
  lowerSome := fun c _ => by simp [exExt, Glob.demoCase]
  regex := fun p v => by
    simp only [exExt]
    split <;> simp_all

/-- A message with two headers called 1 and one called 2. -/
def exParts : List (Mime.Part Nat Field) :=
  [⟨[⟨1, ⟨.text "12".toList, false, [49, 50]⟩⟩, ⟨2, ⟨.other, false, [97, 98]⟩⟩, ⟨1, ⟨.text "Ab".toList, true, []⟩⟩], .other⟩]

theorem exTree : Mime.Represents exParts (.node 0 []) := .leaf rfl rfl

example : headerExec exExt (fun _ => false) false .asciiCaseMap .is .none exParts 0 [1] none false 3
    [.str "x".toList, .str "aB".toList] = some ⟨.bool false, []⟩ := by rfl

example : headerExec exExt (fun _ => false) false .asciiCaseMap .is .none exParts 0 [1] none false 3
    [.str "x".toList, .str "ab".toList] = some ⟨.bool true, []⟩ := by rfl

example : Looked exParts (searched false (.node 0 [])) [1] none ⟨1, ⟨.text "Ab".toList, true, []⟩⟩ :=
  ⟨0, by simp [searched, Mime.Tree.id], _, rfl, 1, by simp, 2, rfl, ⟨⟨_, rfl, rfl⟩, trivial⟩⟩

example : FieldValue exExt false ⟨.text "Ab".toList, true, []⟩ .none "Ab".toList := .added rfl rfl

example : Holds exExt .asciiCaseMap .is (.text "Ab".toList) (.val (.str "ab".toList)) := by
  simp [Holds, Item.str, text, exExt, Glob.demoCase]

/-- `header :contains` on the raw header, negated. -/
example : headerExec exExt (fun _ => false) true .octet .contains .none exParts 0 [2, 1] none true 3
    [.str "b".toList] = some ⟨.bool false, []⟩ := by rfl

/-- The count of the headers called 1 is at least 2. -/
example : headerExec exExt (fun _ => false) false .octet (.count .ge) .none exParts 0 [1] none false 3
    [.str "2".toList] = some ⟨.bool true, []⟩ := by rfl

/-- No addresses can be read: the value is empty. -/
example : addressExec exExt false .octet .is .all exParts 0 [2] none false 3 [.str []] = some ⟨.bool true, []⟩ := by rfl

example : AddressValue exExt .all ⟨.addresses [⟨none, some "a@b".toList⟩], false, []⟩ "a@b".toList :=
  .inl ⟨_, .inl (.inl rfl), _, List.mem_singleton_self _, .all (.address rfl)⟩

example : envelopeTest exExt false .octet .is .domain none [.from] [(.to, .str "b".toList), (.from, .str "a".toList)]
    [.str "a".toList] = ⟨.bool true, []⟩ := by rfl

example : hasflagTest exExt false .asciiCaseMap .is [.str "x Ab".toList] [.str "y ab".toList] = ⟨.bool true, []⟩ := by rfl

example : stringTest exExt true false .octet .contains [.str "abc".toList, .str []] [.str "bc".toList] = ⟨.bool true, []⟩ := by
  rfl

example : stringTest exExt false false .octet (.count .eq) [.str "a".toList, .str []] [.str "1".toList] = ⟨.bool true, []⟩ := by
  rfl

example : listTest exExt false .octet ["a".toList, [], "a".toList, "b".toList] [.str "addr".toList] =
    ⟨.listContains ["addr".toList] ["a".toList, "b".toList] .octet false, []⟩ := by rfl

/-- `abc` is less than 1 as a header, but the largest value as a key. -/
example : Comparator.relational exExt .asciiNumeric .lt (.text "abc".toList) (.val (.str "1".toList)) = true := by rfl
example : Comparator.relational exExt .asciiNumeric .lt (.val (.str "12".toList)) (.val (.str "abc".toList)) = true := by rfl
example : Comparator.relational exExt .octet .lt (.text "abc".toList) (.val (.str "abd".toList)) = true := by rfl

example : Charwise exExt .asciiCaseMap (.matches 2) "Ab".toList := fun _ _ _ _ => by rfl

/-- Numbers with one more value `none`, compared by `top`. -/
def exWith (top : Option Int → Option Int → Option Ordering) : Ext (Option Int) where
  flt := {
    zero := some 0, add := fun a _ => a, sub := fun a _ => a, mul := fun a _ => a, div := fun a _ => a, neg := id,
    ofInt := some, eq := fun a b => top a b == some .eq, cmp := top, toNat := fun _ => 0, parseInt := exParse,
    parseNat := fun _ => none, parseFlt := fun s => if s == ['n', 'a', 'n'] then some none else (exParse s).map some,
    showInt := fun _ => [], showFlt := fun _ => [] }
  inf := none
  cm := Glob.demoCase
  ws := Flags.asciiWs
  isMatch _ _ := false
  captures _ _ := none
  utf8 _ := []
  parseUnstructured _ := .other
  parseContentType _ := .other
  parseAddress _ := .other
  part _ s := some s
  eqIgnoreCase a b := a == b

/-- `none` is infinity. -/
def exInfinity : Ext (Option Int) := exWith fun a b =>
  match a, b with
  | none, none => some .eq
  | none, some _ => some .gt
  | some _, none => some .lt
  | some a, some b => some (Expr.cmpInt a b)

example (y : Expr.Num (Option Int)) : ((Item.val (.str "abc".toList)).number exInfinity).cmp exInfinity.flt y ≠ some .lt :=
  numeral_rank_partial exInfinity (fun y => by cases y <;> simp [exInfinity, exWith]) _ (by rfl) (by rfl) y

/-- `none` is NaN. -/
def exNan : Ext (Option Int) := exWith fun a b =>
  match a, b with
  | some a, some b => some (Expr.cmpInt a b)
  | _, _ => none

example (k : Item (Option Int)) : Comparator.relational exNan .asciiNumeric .ge (.text "nan".toList) k = false :=
  (nan_unordered exNan none (fun _ => rfl) (fun _ => rfl) _ rfl k).1

end Sieve.Tests
