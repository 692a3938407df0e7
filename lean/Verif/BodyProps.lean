import Verif.BodyModel
import Verif.TestsProps

/-!
# Properties of the `body` test

C65: the search for nested parts ends, and visits exactly the parts below the current one, those of enclosed messages
included, in document order.
C66: `body` is true exactly if a text of one of the selected parts matches one of the keys.
-/

namespace Sieve.Body
open Sieve.Expr (Val)
open Sieve.Tests (Str Ext Comparator Match Item Holds)

variable {F : Type}

/-! ## Specification -/

/-- Part `p` of message `m'` is the part `id` of `m`, or is below it: in a multipart, or in an enclosed message. -/
inductive Inside : Msg → Nat → Msg → Part → Prop
  | self {m : Msg} {id : Nat} : m.parts[id]? = some p → Inside m id m p
  | sub {m m' : Msg} {id s : Nat} : m.parts[id]? = some (Part.multipart i subs) → s ∈ subs → Inside m s m' p → Inside m id m' p
  | enclosed {m m' : Msg} {id : Nat} : m.parts[id]? = some (Part.message i raw parts) → Inside ⟨raw, parts⟩ 0 m' p → Inside m id m' p

/-- The parts below those called `ids`, in document order, with the raw message each of them is in: a part comes
before what is below it, which comes before the part after it. -/
inductive Below : Msg → List Nat → List (Part × Bytes) → Prop
  | nil {m : Msg} : Below m [] []
  | missing {m : Msg} {id : Nat} {ids : List Nat} {l : List (Part × Bytes)} : m.parts[id]? = none →
      Below m ids l → Below m (id :: ids) l
  | text {m : Msg} {id : Nat} {i : Info} {t : Str} {ids : List Nat} {l : List (Part × Bytes)} :
      m.parts[id]? = some (.text i t) → Below m ids l → Below m (id :: ids) ((.text i t, m.raw) :: l)
  | html {m : Msg} {id : Nat} {i : Info} {t : Str} {ids : List Nat} {l : List (Part × Bytes)} :
      m.parts[id]? = some (.html i t) → Below m ids l → Below m (id :: ids) ((.html i t, m.raw) :: l)
  | binary {m : Msg} {id : Nat} {i : Info} {b : Bytes} {ids : List Nat} {l : List (Part × Bytes)} :
      m.parts[id]? = some (.binary i b) → Below m ids l → Below m (id :: ids) ((.binary i b, m.raw) :: l)
  | multipart {m : Msg} {id : Nat} {i : Info} {subs ids : List Nat} {l₁ l₂ : List (Part × Bytes)} :
      m.parts[id]? = some (.multipart i subs) → Below m subs l₁ → Below m ids l₂ →
      Below m (id :: ids) ((.multipart i subs, m.raw) :: (l₁ ++ l₂))
  | message {m : Msg} {id : Nat} {i : Info} {raw : Bytes} {parts : List Part} {ids : List Nat}
      {l₁ l₂ : List (Part × Bytes)} :
      m.parts[id]? = some (.message i raw parts) → Below ⟨raw, parts⟩ [0] l₁ → Below m ids l₂ →
      Below m (id :: ids) ((.message i raw parts, m.raw) :: (l₁ ++ l₂))

/-- The parts of a multipart have higher numbers than the multipart (as in parsed messages), in enclosed messages as
well. -/
inductive Forward : Msg → Prop
  | mk {m : Msg} : (∀ (id : Nat) i subs, m.parts[id]? = some (Part.multipart i subs) → ∀ s ∈ subs, id < s) →
      (∀ (id : Nat) i raw parts, m.parts[id]? = some (Part.message i raw parts) → Forward ⟨raw, parts⟩) → Forward m

/-- The content type of a part: the one given in its header, or else the one of its kind. -/
inductive HasType : Part → Str → Str → Prop
  | full : p.info.ctype = some ⟨main, some sub, b⟩ → HasType p main sub
  | mainOnly : p.info.ctype = some ⟨main, none, b⟩ → HasType p main []
  | text : i.ctype = none → HasType (.text i t) "text".toList "plain".toList
  | html : i.ctype = none → HasType (.html i t) "text".toList "html".toList
  | message : i.ctype = none → HasType (.message i raw parts) "message".toList "rfc822".toList
  | multipart : i.ctype = none → HasType (.multipart i subs) "multipart".toList "mixed".toList
  | binary : i.ctype = none → HasType (.binary i b) "application".toList "octet-stream".toList

/-- A main type, or a main type and a subtype. -/
inductive Proper : Str → Prop
  | main : t ≠ [] → '/' ∉ t → Proper t
  | both : a ≠ [] → b ≠ [] → '/' ∉ a → '/' ∉ b → Proper (a ++ '/' :: b)

/-- An item of `:content` selects a part (RFC 5173 section 5.2): the empty string selects all, others those with the
given main type, or with the given main type and subtype. -/
inductive Selects (x : Ext F) (p : Part) : Str → Prop
  | all : Selects x p []
  | main : t ≠ [] → '/' ∉ t → HasType p main sub → x.eqIgnoreCase t main = true → Selects x p t
  | both : a ≠ [] → b ≠ [] → '/' ∉ a → '/' ∉ b → HasType p main sub → x.eqIgnoreCase a main = true →
      x.eqIgnoreCase b sub = true → Selects x p (a ++ '/' :: b)

/-- The part is selected by the transformation. -/
def Selected (x : Ext F) (p : Part) : Transform F → Prop
  | .content types => ∃ t ∈ types, Selects x p (Tests.text x.flt t)
  | _ => True

/-- Bytes `a` up to `b` of the raw message; nothing if there are no such bytes. -/
def Between (raw : Bytes) (a b : Nat) (s : Bytes) : Prop :=
  (∃ pre post, raw = pre ++ s ++ post ∧ pre.length = a ∧ pre.length + s.length = b) ∨
    ((b < a ∨ raw.length < b) ∧ s = [])

/-- What comes before the first boundary of a multipart and after the last closing one. -/
def Around (boundary s t : Str) : Prop :=
  (¬ ('\n' :: '-' :: '-' :: boundary) <:+: s ∧ t = []) ∨
    ∃ pro rest, s = pro ++ ('\n' :: '-' :: '-' :: boundary) ++ rest ∧
      (∀ pro' rest', s = pro' ++ ('\n' :: '-' :: '-' :: boundary) ++ rest' → pro.length ≤ pro'.length) ∧
      ((¬ ('\n' :: '-' :: '-' :: boundary ++ ['-', '-']) <:+: rest ∧ t = pro) ∨
        ∃ mid epi, rest = mid ++ ('\n' :: '-' :: '-' :: boundary ++ ['-', '-']) ++ epi ∧
          (∀ mid' epi', rest = mid' ++ ('\n' :: '-' :: '-' :: boundary ++ ['-', '-']) ++ epi' →
            mid'.length ≤ mid.length) ∧ t = pro ++ epi)

/-- The text that a part is searched for (RFC 5173 section 5). -/
inductive Reads (x : Ext F) (lib : Lib) (raw : Bytes) : Transform F → Part → Str → Prop
  | textText : Reads x lib raw .text (.text i t) t
  | textHtml : Reads x lib raw .text (.html i t) (lib.html t)
  | textXml : i.ctype = some ⟨main, some sub, bd⟩ → x.eqIgnoreCase main "application".toList = true →
      "xml".toList <:+: sub → lib.utf8 b = some s → Reads x lib raw .text (.binary i b) (lib.html s)
  | textXmlBad : i.ctype = some ⟨main, some sub, bd⟩ → x.eqIgnoreCase main "application".toList = true →
      "xml".toList <:+: sub → lib.utf8 b = none → Reads x lib raw .text (.binary i b) (lib.html [])
  | contentText : Reads x lib raw (.content l) (.text i t) t
  | contentHtml : Reads x lib raw (.content l) (.html i t) t
  | contentBinary : Reads x lib raw (.content l) (.binary i b) (lib.lossy b)
  | contentMessage : Between raw first.info.hdr first.info.body s →
      Reads x lib raw (.content l) (.message i r (first :: rest)) (lib.lossy s)
  | contentMultipart : i.ctype = some ⟨main, sub, some bd⟩ → Between raw i.body i.stop s → lib.utf8 s = some u →
      Around bd u t → Reads x lib raw (.content l) (.multipart i subs) t
  | contentMultipartBad : i.ctype = some ⟨main, sub, some bd⟩ → Between raw i.body i.stop s → lib.utf8 s = none →
      Reads x lib raw (.content l) (.multipart i subs) []
  | contentMultipartWhole : (∀ main sub bd, i.ctype ≠ some ⟨main, sub, some bd⟩) → Between raw i.body i.stop s →
      Reads x lib raw (.content l) (.multipart i subs) (lib.lossy s)
  | rawInserted : i.body = 0 → Reads x lib raw .raw (.text i t) t
  | rawBytes : (∀ i t, p = .text i t → i.body ≠ 0) → p.info.body < p.info.stop →
      Between raw p.info.body p.info.stop s → Reads x lib raw .raw p (lib.lossy s)

/-! ## C65: nested parts -/

theorem walk_below (keep : Part → Bool) {m : Msg} {ids : List Nat} {l : List (Part × Bytes)} (h : Below m ids l) :
    ∃ n, ∀ k st, walk keep (n + k) m ids st =
      (walk keep k m [] st).map ((l.filter fun p => keep p.1) ++ ·) := by
  have leaf : ∀ {m : Msg} {id : Nat} {ids : List Nat} {l : List (Part × Bytes)} {p : Part},
      m.parts[id]? = some p → (∀ i subs, p ≠ .multipart i subs) → (∀ i r ps, p ≠ .message i r ps) →
      (∃ n, ∀ k st, walk keep (n + k) m ids st = (walk keep k m [] st).map ((l.filter fun p => keep p.1) ++ ·)) →
      ∃ n, ∀ k st, walk keep (n + k) m (id :: ids) st =
        (walk keep k m [] st).map ((((p, m.raw) :: l).filter fun p => keep p.1) ++ ·) := by
    intro m id ids l p hp h1 h2 ih
    obtain ⟨n, ih⟩ := ih
    refine ⟨n + 1, fun k st => ?_⟩
    have e : n + 1 + k = (n + k) + 1 := by omega
    rw [e, walk, hp]
    cases p with
    | multipart i subs => exact (h1 i subs rfl).elim
    | message i r ps => exact (h2 i r ps rfl).elim
    | _ =>
      simp only []
      rw [ih k st, Option.map_map]
      congr 1
      funext r
      rw [List.filter_cons]
      split <;> simp
  induction h with
  | nil =>
    refine ⟨0, fun k st => ?_⟩
    rw [Nat.zero_add]
    cases walk keep k _ [] st <;> simp
  | missing h1 _ ih =>
    obtain ⟨n, ih⟩ := ih
    refine ⟨n + 1, fun k st => ?_⟩
    have e : n + 1 + k = (n + k) + 1 := by omega
    rw [e, walk, h1]
    exact ih k st
  | text h1 _ ih => exact leaf h1 (fun _ _ h => by cases h) (fun _ _ _ h => by cases h) ih
  | html h1 _ ih => exact leaf h1 (fun _ _ h => by cases h) (fun _ _ _ h => by cases h) ih
  | binary h1 _ ih => exact leaf h1 (fun _ _ h => by cases h) (fun _ _ _ h => by cases h) ih
  | @multipart m id i subs ids l₁ l₂ h1 _ _ ih1 ih2 =>
    obtain ⟨n1, ih1⟩ := ih1
    obtain ⟨n2, ih2⟩ := ih2
    refine ⟨1 + n1 + 1 + n2, fun k st => ?_⟩
    have e : 1 + n1 + 1 + n2 + k = (n1 + ((n2 + k) + 1)) + 1 := by omega
    rw [e, walk, h1]
    simp only []
    rw [ih1, walk, ih2]
    simp only [Option.map_map]
    congr 1
    funext r
    rw [List.filter_cons]
    split <;> simp
  | @message m id i raw parts ids l₁ l₂ h1 _ _ ih1 ih2 =>
    obtain ⟨n1, ih1⟩ := ih1
    obtain ⟨n2, ih2⟩ := ih2
    refine ⟨1 + n1 + 1 + n2, fun k st => ?_⟩
    have e : 1 + n1 + 1 + n2 + k = (n1 + ((n2 + k) + 1)) + 1 := by omega
    rw [e, walk, h1]
    simp only []
    rw [ih1, walk, ih2]
    simp only [Option.map_map]
    congr 1
    funext r
    rw [List.filter_cons]
    split <;> simp

/-- The list of the parts below exists: no part is below itself. -/
theorem below_exists {m : Msg} (h : Forward m) (ids : List Nat) : ∃ l, Below m ids l := by
  induction h generalizing ids with
  | @mk m h1 h2 ih =>
    have one : ∀ d id, m.parts.length ≤ id + d → ∀ ids l, Below m ids l → ∃ l', Below m (id :: ids) l' := by
      intro d
      induction d with
      | zero =>
        intro id hd ids l hl
        exact ⟨l, .missing (List.getElem?_eq_none (by omega)) hl⟩
      | succ d ihd =>
        intro id hd ids l hl
        cases hp : m.parts[id]? with
        | none => exact ⟨l, .missing hp hl⟩
        | some p =>
          cases p with
          | text i t => exact ⟨_, .text hp hl⟩
          | html i t => exact ⟨_, .html hp hl⟩
          | binary i b => exact ⟨_, .binary hp hl⟩
          | message i raw parts =>
            obtain ⟨l1, hl1⟩ := ih id i raw parts hp [0]
            exact ⟨_, .message hp hl1 hl⟩
          | multipart i subs =>
            have : ∀ ss : List Nat, (∀ s ∈ ss, id < s) → ∃ l1, Below m ss l1 := by
              intro ss
              induction ss with
              | nil => exact fun _ => ⟨_, .nil⟩
              | cons s ss ihs =>
                intro hs
                obtain ⟨l1, hl1⟩ := ihs fun t ht => hs t (List.mem_cons_of_mem _ ht)
                have := hs s List.mem_cons_self
                exact ihd s (by omega) ss l1 hl1
            obtain ⟨l1, hl1⟩ := this subs (h1 id i subs hp)
            exact ⟨_, .multipart hp hl1 hl⟩
    induction ids with
    | nil => exact ⟨_, .nil⟩
    | cons id ids ihi =>
      obtain ⟨l, hl⟩ := ihi
      exact one m.parts.length id (by omega) ids l hl

theorem below_inside {m : Msg} {ids : List Nat} {l : List (Part × Bytes)} (h : Below m ids l) (p : Part) (raw : Bytes) :
    (p, raw) ∈ l ↔ ∃ id ∈ ids, ∃ m', m'.raw = raw ∧ Inside m id m' p := by
  have leaf : ∀ {m : Msg} {id : Nat} {ids : List Nat} {l : List (Part × Bytes)} {q : Part},
      m.parts[id]? = some q → (∀ i subs, q ≠ .multipart i subs) → (∀ i r ps, q ≠ .message i r ps) →
      ((p, raw) ∈ l ↔ ∃ id ∈ ids, ∃ m', m'.raw = raw ∧ Inside m id m' p) →
      ((p, raw) ∈ (q, m.raw) :: l ↔ ∃ id' ∈ id :: ids, ∃ m', m'.raw = raw ∧ Inside m id' m' p) := by
    intro m id ids l q hq h1 h2 ih
    rw [List.mem_cons, ih]
    constructor
    · rintro (h | ⟨id', h3, h4⟩)
      · cases h
        exact ⟨id, List.mem_cons_self, m, rfl, .self hq⟩
      · exact ⟨id', List.mem_cons_of_mem _ h3, h4⟩
    · rintro ⟨id', h3, m', h4, h5⟩
      rcases List.mem_cons.mp h3 with rfl | h3
      · left
        cases h5 with
        | self h6 => rw [hq] at h6; cases h6; rw [h4]
        | sub h6 => rw [hq] at h6; cases h6; exact (h1 _ _ rfl).elim
        | enclosed h6 => rw [hq] at h6; cases h6; exact (h2 _ _ _ rfl).elim
      · exact .inr ⟨id', h3, m', h4, h5⟩
  induction h with
  | nil => simp
  | @missing m id ids l h1 _ ih =>
    refine Iff.trans ih ?_
    constructor
    · rintro ⟨id', h3, h4⟩
      exact ⟨id', List.mem_cons_of_mem _ h3, h4⟩
    · rintro ⟨id', h3, m', h4, h5⟩
      rcases List.mem_cons.mp h3 with rfl | h3
      · cases h5 with
        | self h6 => rw [h1] at h6; cases h6
        | sub h6 => rw [h1] at h6; cases h6
        | enclosed h6 => rw [h1] at h6; cases h6
      · exact ⟨id', h3, m', h4, h5⟩
  | text h1 _ ih => exact leaf h1 (fun _ _ h => by cases h) (fun _ _ _ h => by cases h) ih
  | html h1 _ ih => exact leaf h1 (fun _ _ h => by cases h) (fun _ _ _ h => by cases h) ih
  | binary h1 _ ih => exact leaf h1 (fun _ _ h => by cases h) (fun _ _ _ h => by cases h) ih
  | @multipart m id i subs ids l₁ l₂ h1 _ _ ih1 ih2 =>
    rw [List.mem_cons, List.mem_append]
    refine Iff.trans (or_congr Iff.rfl (or_congr ih1 ih2)) ?_
    constructor
    · rintro (h | ⟨s, h3, m', h4, h5⟩ | ⟨id', h3, h4⟩)
      · cases h
        exact ⟨id, List.mem_cons_self, m, rfl, .self h1⟩
      · exact ⟨id, List.mem_cons_self, m', h4, .sub h1 h3 h5⟩
      · exact ⟨id', List.mem_cons_of_mem _ h3, h4⟩
    · rintro ⟨id', h3, m', h4, h5⟩
      rcases List.mem_cons.mp h3 with rfl | h3
      · cases h5 with
        | self h6 => rw [h1] at h6; cases h6; rw [h4]; exact .inl rfl
        | sub h6 h7 h8 => rw [h1] at h6; cases h6; exact .inr (.inl ⟨_, h7, m', h4, h8⟩)
        | enclosed h6 => rw [h1] at h6; cases h6
      · exact .inr (.inr ⟨id', h3, m', h4, h5⟩)
  | @message m id i raw' parts ids l₁ l₂ h1 _ _ ih1 ih2 =>
    rw [List.mem_cons, List.mem_append]
    refine Iff.trans (or_congr Iff.rfl (or_congr ih1 ih2)) ?_
    constructor
    · rintro (h | ⟨s, h3, m', h4, h5⟩ | ⟨id', h3, h4⟩)
      · cases h
        exact ⟨id, List.mem_cons_self, m, rfl, .self h1⟩
      · cases List.mem_singleton.mp h3
        exact ⟨id, List.mem_cons_self, m', h4, .enclosed h1 h5⟩
      · exact ⟨id', List.mem_cons_of_mem _ h3, h4⟩
    · rintro ⟨id', h3, m', h4, h5⟩
      rcases List.mem_cons.mp h3 with rfl | h3
      · cases h5 with
        | self h6 => rw [h1] at h6; cases h6; rw [h4]; exact .inl rfl
        | sub h6 => rw [h1] at h6; cases h6
        | enclosed h6 h7 => rw [h1] at h6; cases h6; exact .inr (.inl ⟨0, List.mem_singleton_self _, m', h4, h7⟩)
      · exact .inr (.inr ⟨id', h3, m', h4, h5⟩)

/-- C65: the search ends, and visits the parts below the current one in document order, each with the raw message it is
in, leaving out those that are filtered; these are the parts inside the current one, those of enclosed messages
included. -/
theorem nested_parts (keep : Part → Bool) {m : Msg} (h : Forward m) (part : Nat) :
    ∃ l n, Below m [part] l ∧ (∀ fuel, n ≤ fuel → walk keep fuel m [part] [] = some (l.filter fun p => keep p.1)) ∧
      ∀ p raw, (p, raw) ∈ l ↔ ∃ m', m'.raw = raw ∧ Inside m part m' p := by
  obtain ⟨l, hl⟩ := below_exists h [part]
  obtain ⟨n, hn⟩ := walk_below keep hl
  refine ⟨l, n + 1, hl, fun fuel hf => ?_, fun p raw => ?_⟩
  · obtain ⟨k, rfl⟩ : ∃ k, fuel = n + (k + 1) := ⟨fuel - (n + 1), by omega⟩
    rw [hn, walk]
    simp
  · rw [below_inside hl]
    simp

/-! ## C66: selection by content type -/

theorem hasType_iff (p : Part) (main sub : Str) : HasType p main sub ↔ p.ctype = (main, sub) := by
  constructor
  · intro h
    cases h with
    | full h => simp [Part.ctype, h]
    | mainOnly h => simp [Part.ctype, h]
    | text h => simp [Part.ctype, Part.info, h]
    | html h => simp [Part.ctype, Part.info, h]
    | message h => simp [Part.ctype, Part.info, h]
    | multipart h => simp [Part.ctype, Part.info, h]
    | binary h => simp [Part.ctype, Part.info, h]
  · intro h
    cases hc : p.info.ctype with
    | some ct =>
      obtain ⟨m, s, b⟩ := ct
      simp only [Part.ctype, hc] at h
      cases s with
      | some s => cases h; exact .full hc
      | none => cases h; exact .mainOnly hc
    | none =>
      cases p <;> simp only [Part.ctype, hc] at h <;> cases h <;> simp only [Part.info] at hc
      · exact .text hc
      · exact .html hc
      · exact .binary hc
      · exact .multipart hc
      · exact .message hc

theorem splitSlash_ne (s : Str) : splitSlash s ≠ [] := by
  cases s with
  | nil => simp [splitSlash]
  | cons c cs =>
    rw [splitSlash]
    split
    · simp
    · split <;> simp

theorem splitSlash_none {s : Str} (h : '/' ∉ s) : splitSlash s = [s] := by
  induction s with
  | nil => rfl
  | cons c cs ih =>
    rw [splitSlash, if_neg (fun e : c = '/' => h (e ▸ List.mem_cons_self)), ih fun h' => h (List.mem_cons_of_mem _ h')]

theorem splitSlash_some {a b : Str} (h : '/' ∉ a) : splitSlash (a ++ '/' :: b) = a :: splitSlash b := by
  induction a with
  | nil => rw [List.nil_append, splitSlash, if_pos rfl]
  | cons c cs ih =>
    rw [List.cons_append, splitSlash, if_neg (fun e : c = '/' => h (e ▸ List.mem_cons_self)),
      ih fun h' => h (List.mem_cons_of_mem _ h')]

/-- Every text is free of slashes, or has a first one. -/
theorem slash_cases (s : Str) : '/' ∉ s ∨ ∃ a b, '/' ∉ a ∧ s = a ++ '/' :: b := by
  by_cases h : '/' ∈ s
  · right
    induction s with
    | nil => cases h
    | cons c cs ih =>
      by_cases e : c = '/'
      · exact ⟨[], cs, by simp, by rw [e]; rfl⟩
      · obtain ⟨a, b, h1, h2⟩ := ih ((List.mem_cons.mp h).resolve_left (Ne.symm e))
        refine ⟨c :: a, b, fun h' => ?_, by rw [h2]; rfl⟩
        rcases List.mem_cons.mp h' with h' | h'
        · exact e h'.symm
        · exact h1 h'
  · exact .inl h

/-- Exactly the proper types are accepted by the parser of filters. -/
theorem parse_iff (t : Str) : (Filter.parse t).isSome = true ↔ Proper t := by
  constructor
  · intro h
    rcases slash_cases t with hs | ⟨a, b, ha, rfl⟩
    · rw [Filter.parse, splitSlash_none hs] at h
      refine .main (fun e => ?_) hs
      subst e
      cases h
    · rw [Filter.parse, splitSlash_some ha] at h
      rcases slash_cases b with hb | ⟨b1, b2, hb1, rfl⟩
      · rw [splitSlash_none hb] at h
        simp only [Bool.and_eq_true, Bool.not_eq_true'] at h
        split at h
        · rename_i hab
          refine .both (fun e => ?_) (fun e => ?_) ha hb
          · subst e; simp at hab
          · subst e; simp at hab
        · cases h
      · rw [splitSlash_some hb1] at h
        cases hb2 : splitSlash b2 with
        | nil => exact (splitSlash_ne b2 hb2).elim
        | cons c cs => rw [hb2] at h; cases h
  · intro h
    cases h with
    | main h1 h2 =>
      rw [Filter.parse, splitSlash_none h2]
      simp [h1]
    | both h1 h2 h3 h4 =>
      rw [Filter.parse, splitSlash_some h3, splitSlash_none h4]
      simp [h1, h2]

/-- A filter made of a text accepts exactly the parts that the text selects. -/
theorem accepts_iff (x : Ext F) (p : Part) {t : Str} {f : Filter} (h : Filter.parse t = some f) :
    f.accepts x p.ctype = true ↔ Selects x p t := by
  have hp : Proper t := (parse_iff t).mp (by rw [h]; rfl)
  have hct : HasType p p.ctype.1 p.ctype.2 := (hasType_iff _ _ _).mpr rfl
  cases hp with
  | main h1 h2 =>
    rw [Filter.parse, splitSlash_none h2] at h
    simp only [List.isEmpty_iff, if_neg h1] at h
    cases h
    constructor
    · intro h3
      exact .main h1 h2 hct h3
    · intro h3
      cases h3 with
      | all => exact (h1 rfl).elim
      | main _ _ h4 h5 => rw [(hasType_iff _ _ _).mp h4]; exact h5
      | both => exact absurd (by simp) h2
  | @both a b h1 h2 h3 h4 =>
    rw [Filter.parse, splitSlash_some h3, splitSlash_none h4] at h
    simp only [List.isEmpty_eq_false_iff.mpr h1, List.isEmpty_eq_false_iff.mpr h2] at h
    cases h
    rw [Filter.accepts, Bool.and_eq_true]
    constructor
    · rintro ⟨h5, h6⟩
      exact .both h1 h2 h3 h4 hct h5 h6
    · intro h5
      generalize he : a ++ '/' :: b = t at h5
      cases h5 with
      | all => cases a <;> cases he
      | main _ h6 => exact absurd (he ▸ by simp) h6
      | both g1 g2 g3 g4 g5 g6 g7 =>
        have e := congrArg splitSlash he
        rw [splitSlash_some h3, splitSlash_none h4, splitSlash_some g3, splitSlash_none g4] at e
        cases e
        rw [(hasType_iff _ _ _).mp g5]
        exact ⟨g6, g7⟩

theorem text_of_empty {x : Ext F} {v : Val F} (h : Tests.isEmpty v = true) : Tests.text x.flt v = [] := by
  cases v with
  | str s => exact List.isEmpty_iff.mp h
  | _ => cases h

/-- All content types are proper, the filters are made from all of them. -/
theorem filters_some (x : Ext F) (types : List (Val F)) (h : ∀ t ∈ types, Proper (Tests.text x.flt t)) :
    ∃ fs, filters x types = some fs ∧ fs.length = types.length ∧
      ∀ p, (fs.any (·.accepts x p.ctype) = true ↔ ∃ t ∈ types, Selects x p (Tests.text x.flt t)) := by
  induction types with
  | nil => exact ⟨[], rfl, rfl, fun p => by simp⟩
  | cons t ts ih =>
    obtain ⟨fs, h1, h2, h3⟩ := ih fun t ht => h t (List.mem_cons_of_mem _ ht)
    have ht := h t List.mem_cons_self
    obtain ⟨f, hf⟩ := Option.isSome_iff_exists.mp ((parse_iff _).mpr ht)
    have he : ¬ Tests.isEmpty t = true := fun he => by
      rw [text_of_empty he] at hf
      cases hf
    refine ⟨f :: fs, ?_, by simp [h2], fun p => ?_⟩
    · rw [filters, if_neg he, hf, h1]
      rfl
    · rw [List.any_cons, Bool.or_eq_true, h3, accepts_iff x p hf]
      simp

/-! ## C66: the text of a part -/

theorem slice_iff (raw : Bytes) (a b : Nat) (s : Bytes) : Between raw a b s ↔ s = slice raw a b := by
  unfold Between slice
  constructor
  · rintro (⟨pre, post, rfl, rfl, rfl⟩ | ⟨h1, rfl⟩)
    · rw [if_pos ⟨by omega, by simp⟩, ← List.length_append, List.take_left, List.drop_left]
    · rw [if_neg (by omega)]
  · rintro rfl
    split
    · rename_i h
      refine .inl ⟨raw.take a, raw.drop b, ?_, by simp; omega, by simp; omega⟩
      have : (raw.take b).drop a ++ raw.drop b = raw.drop a := by
        conv_rhs => rw [← List.take_append_drop b raw]
        rw [List.drop_append_of_le_length (by simp; omega)]
      rw [List.append_assoc, this, List.take_append_drop]
    · exact .inr ⟨by omega, rfl⟩

theorem splitOnce_none {n s : Str} (h : splitOnce n s = none) : ¬ n <:+: s := by
  induction s with
  | nil =>
    rw [splitOnce] at h
    intro h'
    rw [List.eq_nil_of_infix_nil h'] at h
    cases h
  | cons c cs ih =>
    rw [splitOnce] at h
    split at h
    · cases h
    · rename_i hp
      rw [List.infix_cons_iff]
      rintro (h' | h')
      · exact hp (List.isPrefixOf_iff_prefix.mpr h')
      · exact ih (by simpa using h) h'

theorem prefix_drop {n s : Str} (h : n <+: s) : s = n ++ s.drop n.length := by
  obtain ⟨t, rfl⟩ := h
  rw [List.drop_left]

theorem splitOnce_some {n s : Str} {r : Str × Str} (h : splitOnce n s = some r) :
    s = r.1 ++ n ++ r.2 ∧ ∀ a b, s = a ++ n ++ b → r.1.length ≤ a.length := by
  induction s generalizing r with
  | nil =>
    rw [splitOnce] at h
    split at h
    · cases h
      rename_i hn
      rw [List.isEmpty_iff.mp hn]
      exact ⟨rfl, fun a b _ => Nat.zero_le _⟩
    · cases h
  | cons c cs ih =>
    rw [splitOnce] at h
    split at h
    · cases h
      rename_i hp
      exact ⟨by simpa using prefix_drop (List.isPrefixOf_iff_prefix.mp hp), fun a b _ => Nat.zero_le _⟩
    · rename_i hp
      obtain ⟨r', h1, rfl⟩ := Option.map_eq_some_iff.mp h
      obtain ⟨h2, h3⟩ := ih h1
      refine ⟨by rw [h2]; rfl, fun a b he => ?_⟩
      cases a with
      | nil => exact (hp (List.isPrefixOf_iff_prefix.mpr ⟨b, by rw [he]; rfl⟩)).elim
      | cons d ds =>
        simp only [List.cons_append, List.cons.injEq] at he
        have := h3 ds b he.2
        simp only [List.length_cons]
        omega

theorem rsplitOnce_none {n s : Str} (h : rsplitOnce n s = none) : ¬ n <:+: s := by
  induction s with
  | nil =>
    rw [rsplitOnce] at h
    intro h'
    rw [List.eq_nil_of_infix_nil h'] at h
    cases h
  | cons c cs ih =>
    rw [rsplitOnce] at h
    split at h
    · cases h
    · rename_i hr
      split at h
      · cases h
      · rename_i hp
        rw [List.infix_cons_iff]
        rintro (h' | h')
        · exact hp (List.isPrefixOf_iff_prefix.mpr h')
        · exact ih hr h'

theorem rsplitOnce_some {n s : Str} {r : Str × Str} (h : rsplitOnce n s = some r) :
    s = r.1 ++ n ++ r.2 ∧ ∀ a b, s = a ++ n ++ b → a.length ≤ r.1.length := by
  induction s generalizing r with
  | nil =>
    rw [rsplitOnce] at h
    split at h
    · cases h
      rename_i hn
      rw [List.isEmpty_iff.mp hn]
      refine ⟨rfl, fun a b he => ?_⟩
      have := congrArg List.length he
      simp only [List.length_nil, List.length_append] at this
      show a.length ≤ 0
      omega
    · cases h
  | cons c cs ih =>
    rw [rsplitOnce] at h
    split at h
    · rename_i r' h1
      cases h
      obtain ⟨h2, h3⟩ := ih h1
      refine ⟨by rw [h2]; rfl, fun a b he => ?_⟩
      cases a with
      | nil => exact Nat.zero_le _
      | cons d ds =>
        simp only [List.cons_append, List.cons.injEq] at he
        have := h3 ds b he.2
        simp only [List.length_cons]
        omega
    · rename_i hr
      split at h
      · cases h
        rename_i hp
        refine ⟨by simpa using prefix_drop (List.isPrefixOf_iff_prefix.mp hp), fun a b he => ?_⟩
        cases a with
        | nil => exact Nat.zero_le _
        | cons d ds =>
          simp only [List.cons_append, List.cons.injEq] at he
          exact (rsplitOnce_none hr ⟨ds, b, he.2.symm⟩).elim
      · cases h

theorem split_unique {n a b a' b' : Str} (h : a ++ n ++ b = a' ++ n ++ b') (hl : a.length = a'.length) :
    a = a' ∧ b = b' := by
  rw [List.append_assoc, List.append_assoc] at h
  obtain ⟨h1, h2⟩ := List.append_inj h hl
  exact ⟨h1, List.append_cancel_left h2⟩

theorem around_iff (bd s t : Str) : Around bd s t ↔ t = around bd s := by
  have hd : delimiter bd = '\n' :: '-' :: '-' :: bd := rfl
  have hc : closing bd = delimiter bd ++ ['-', '-'] := rfl
  unfold Around around
  rw [← hd, ← hc]
  cases h1 : splitOnce (delimiter bd) s with
  | none =>
    constructor
    · rintro (⟨_, h⟩ | ⟨pro, rest, h, _⟩)
      · exact h
      · exact (splitOnce_none h1 ⟨pro, rest, h.symm⟩).elim
    · exact fun h => .inl ⟨splitOnce_none h1, h⟩
  | some r =>
    obtain ⟨pro, rest⟩ := r
    obtain ⟨h2, h3⟩ := splitOnce_some h1
    have tail : ∀ t, (¬ closing bd <:+: rest ∧ t = pro ∨
        ∃ mid epi, rest = mid ++ closing bd ++ epi ∧
          (∀ mid' epi', rest = mid' ++ closing bd ++ epi' → mid'.length ≤ mid.length) ∧ t = pro ++ epi) ↔
        t = match rsplitOnce (closing bd) rest with
          | some (_, epilogue) => pro ++ epilogue
          | none => pro := by
      intro t
      cases h4 : rsplitOnce (closing bd) rest with
      | none =>
        constructor
        · rintro (⟨_, h⟩ | ⟨mid, epi, h, _⟩)
          · exact h
          · exact (rsplitOnce_none h4 ⟨mid, epi, h.symm⟩).elim
        · exact fun h => .inl ⟨rsplitOnce_none h4, h⟩
      | some r =>
        obtain ⟨mid, epi⟩ := r
        obtain ⟨h5, h6⟩ := rsplitOnce_some h4
        constructor
        · rintro (⟨h, _⟩ | ⟨mid', epi', h7, h8, rfl⟩)
          · exact (h ⟨mid, epi, h5.symm⟩).elim
          · have e1 := h6 _ _ h7
            have e2 := h8 _ _ h5
            obtain ⟨_, rfl⟩ := split_unique (h5.symm.trans h7) (Nat.le_antisymm e2 e1)
            rfl
        · exact fun h => .inr ⟨mid, epi, h5, h6, h⟩
    refine Iff.trans ?_ (tail t)
    constructor
    · rintro (⟨h, _⟩ | ⟨pro', rest', h4, h5, h6⟩)
      · exact (h ⟨pro, rest, h2.symm⟩).elim
      · have e1 := h3 _ _ h4
        have e2 := h5 _ _ h2
        obtain ⟨rfl, rfl⟩ := split_unique (h2.symm.trans h4) (Nat.le_antisymm e1 e2)
        exact h6
    · exact fun h => .inr ⟨pro, rest, h2, h3, h⟩

theorem isXml_iff (x : Ext F) (i : Info) : isXml x i = true ↔ ∃ main sub bd, i.ctype = some ⟨main, some sub, bd⟩ ∧
    x.eqIgnoreCase main "application".toList = true ∧ "xml".toList <:+: sub := by
  unfold isXml
  cases h : i.ctype with
  | none => simp
  | some ct =>
    obtain ⟨m, s, b⟩ := ct
    cases s with
    | none => simp
    | some s =>
      simp only [Bool.and_eq_true, Tests.infixOf_iff]
      constructor
      · rintro ⟨h1, h2⟩
        exact ⟨m, s, b, rfl, h1, h2⟩
      · rintro ⟨m', s', b', h1, h2, h3⟩
        cases h1
        exact ⟨h2, h3⟩

theorem boundary_none {ct : Option CType} (h : ∀ main sub bd, ct ≠ some ⟨main, sub, some bd⟩) :
    ct.bind CType.boundary = none := by
  cases ct with
  | none => rfl
  | some ct =>
    obtain ⟨m, s, b⟩ := ct
    cases b with
    | none => rfl
    | some b => exact (h m s b rfl).elim

/-- The text that the code takes of a part is the specified one. -/
theorem reads_iff (x : Ext F) (lib : Lib) (tr : Transform F) (p : Part) (raw : Bytes) (t : Str) :
    Reads x lib raw tr p t ↔ textOf x lib tr p raw = some t := by
  constructor
  · intro h
    cases h with
    | textText => rfl
    | textHtml => rfl
    | textXml h1 h2 h3 h4 => rw [textOf, if_pos ((isXml_iff _ _).mpr ⟨_, _, _, h1, h2, h3⟩), h4]; rfl
    | textXmlBad h1 h2 h3 h4 => rw [textOf, if_pos ((isXml_iff _ _).mpr ⟨_, _, _, h1, h2, h3⟩), h4]; rfl
    | contentText => rfl
    | contentHtml => rfl
    | contentBinary => rfl
    | contentMessage h1 => rw [(slice_iff ..).mp h1]; rfl
    | contentMultipart h1 h2 h3 h4 =>
      rw [(slice_iff ..).mp h2] at h3
      simp only [textOf, h1, Option.bind_some, h3, Option.getD_some]
      rw [(around_iff ..).mp h4]
    | contentMultipartBad h1 h2 h3 =>
      rw [(slice_iff ..).mp h2] at h3
      simp only [textOf, h1, Option.bind_some, h3, Option.getD_none]
      rfl
    | contentMultipartWhole h1 h2 => rw [(slice_iff ..).mp h2, textOf, boundary_none h1]
    | rawInserted h1 => simp only [textOf, if_pos h1]
    | rawBytes h1 h2 h3 =>
      rw [(slice_iff ..).mp h3]
      cases p with
      | text i t =>
        simp only [Part.info] at h2 ⊢
        simp only [textOf, if_neg (h1 i t rfl), if_pos h2]
      | _ => simp only [textOf, if_pos h2]
  · intro h
    cases tr with
    | text =>
      cases p with
      | text i s => cases h; exact .textText
      | html i s => cases h; exact .textHtml
      | binary i b =>
        rw [textOf] at h
        split at h
        · rename_i hx
          obtain ⟨m, s, bd, h1, h2, h3⟩ := (isXml_iff _ _).mp hx
          cases hu : lib.utf8 b with
          | some u => rw [hu] at h; cases h; exact .textXml h1 h2 h3 hu
          | none => rw [hu] at h; cases h; exact .textXmlBad h1 h2 h3 hu
        · cases h
      | multipart i subs => cases h
      | message i r ps => cases h
    | raw =>
      cases p with
      | text i s =>
        simp only [textOf] at h
        split at h
        · cases h; exact .rawInserted ‹_›
        · split at h
          · cases h
            refine .rawBytes (fun i' t' e => ?_) ‹_› ((slice_iff ..).mpr rfl)
            cases e
            assumption
          · cases h
      | _ =>
        simp only [textOf] at h
        split at h
        · cases h
          exact .rawBytes (fun i' t' e => by cases e) ‹_› ((slice_iff ..).mpr rfl)
        · cases h
    | content l =>
      cases p with
      | text i s => cases h; exact .contentText
      | html i s => cases h; exact .contentHtml
      | binary i b => cases h; exact .contentBinary
      | message i r ps =>
        cases ps with
        | nil => cases h
        | cons first rest => cases h; exact .contentMessage ((slice_iff ..).mpr rfl)
      | multipart i subs =>
        cases hc : i.ctype.bind CType.boundary with
        | none =>
          rw [textOf, hc] at h
          cases h
          refine .contentMultipartWhole (fun m s b e => ?_) ((slice_iff ..).mpr rfl)
          rw [e] at hc
          cases hc
        | some b =>
          rw [textOf, hc] at h
          obtain ⟨⟨m, s, b'⟩, h1, h2⟩ := Option.bind_eq_some_iff.mp hc
          simp only at h2
          subst h2
          cases hu : lib.utf8 (slice raw i.body i.stop) with
          | some u =>
            rw [hu] at h
            cases h
            exact .contentMultipart h1 ((slice_iff ..).mpr rfl) hu ((around_iff ..).mpr rfl)
          | none =>
            rw [hu] at h
            cases h
            exact .contentMultipartBad h1 ((slice_iff ..).mpr rfl) hu

/-! ## C66: the test -/

theorem keysMatch_iff {x : Ext F} (hx : x.Ok) (c : Comparator) (m : Match) (t : Str) (keys : List (Val F)) :
    keysMatch x c m t keys = true ↔ ∃ k ∈ keys, Holds x c m (.text t) (.val k) := by
  have e : ∀ k, Holds x c (noCaptures m) (.text t) (.val k) ↔ Holds x c m (.text t) (.val k) := by
    intro k
    cases m <;> first | rfl | (cases c <;> rfl)
  have hv : Tests.Charwise x c (noCaptures m) t := by
    intro cp h1 h2
    cases m <;> cases h1
    exact (h2 rfl).elim
  rw [keysMatch, List.any_eq_true]
  refine exists_congr fun k => and_congr Iff.rfl ?_
  rw [← e]
  exact Tests.verdict_iff hx c (noCaptures m) (.text t) (.val k) hv

/-- The content types of a transformation are proper, or the first one is empty. -/
def Transform.Proper (x : Ext F) : Transform F → Prop
  | .content types =>
    (types ≠ [] ∧ ∀ t ∈ types, Body.Proper (Tests.text x.flt t)) ∨ ∃ rest, types = .str [] :: rest
  | _ => True

theorem selected_filters (x : Ext F) (tr : Transform F) (h : tr.Proper x) :
    ∃ fs, tr.filters x = some fs ∧ ∀ p, keep x fs p = true ↔ Selected x p tr := by
  cases tr with
  | text => exact ⟨[], rfl, fun p => by simp [keep, Selected]⟩
  | raw => exact ⟨[], rfl, fun p => by simp [keep, Selected]⟩
  | content types =>
    rcases h with h | ⟨rest, rfl⟩
    swap
    · exact ⟨[], rfl, fun p => ⟨fun _ => ⟨_, List.mem_cons_self, .all⟩, fun _ => rfl⟩⟩
    obtain ⟨fs, h1, h2, h3⟩ := filters_some x types h.2
    refine ⟨fs, h1, fun p => ?_⟩
    have : fs.isEmpty = false := by
      cases fs with
      | nil => exact (h.1 (List.length_eq_zero_iff.mp h2.symm)).elim
      | cons _ _ => rfl
    rw [keep, this, Bool.false_or, h3]
    rfl

/-- C66: `body` is true exactly if the subject (where it is included) or a text of one of the selected parts inside the
current one matches one of the keys.

Partial: the content types have to be proper (see `improper_type` and `empty_type`); and the text of a multipart is
wrong if there is nothing before the first part (see `part_taken_for_prologue`). -/
theorem body_test_partial {x : Ext F} (hx : x.Ok) (lib : Lib) (isNot : Bool) (c : Comparator) (m : Match)
    (hm : m.comparing) (tr : Transform F) (htr : tr.Proper x) (subject : Option Str) {msg : Msg} (hmsg : Forward msg)
    (part : Nat) (keys : List (Val F)) :
    ∃ b n, (∀ fuel, n ≤ fuel → bodyTest x lib isNot c m tr subject msg part fuel keys = some (b ^^ isNot)) ∧
      (b = true ↔ (∃ s, subject = some s ∧ ∃ k ∈ keys, Holds x c m (.text s) (.val k)) ∨
        ∃ m' p t, Inside msg part m' p ∧ Selected x p tr ∧ Reads x lib m'.raw tr p t ∧
          ∃ k ∈ keys, Holds x c m (.text t) (.val k)) := by
  have hs : subjectMatch x c m keys subject = true ↔ ∃ s, subject = some s ∧ ∃ k ∈ keys, Holds x c m (.text s) (.val k) := by
    cases subject with
    | none => simp [subjectMatch]
    | some s => simp [subjectMatch, keysMatch_iff hx]
  by_cases hsub : subjectMatch x c m keys subject = true
  · refine ⟨true, 0, fun fuel _ => by rw [bodyTest, if_pos hsub], ?_⟩
    simp only [true_iff]
    exact .inl (hs.mp hsub)
  · obtain ⟨fs, hf1, hf2⟩ := selected_filters x tr htr
    obtain ⟨l, n, _, hl2, hl3⟩ := nested_parts (keep x fs) hmsg part
    refine ⟨(l.filter fun p => keep x fs p.1).any (partMatch x lib c m tr keys), n, fun fuel hfu => ?_, ?_⟩
    · rw [bodyTest, if_neg hsub, hf1]
      simp only [hl2 fuel hfu, Option.map_some]
      cases m <;> first | rfl | exact hm.elim
    · rw [List.any_eq_true]
      constructor
      · rintro ⟨⟨p, raw⟩, h1, h2⟩
        obtain ⟨h3, h4⟩ := List.mem_filter.mp h1
        obtain ⟨m', rfl, h5⟩ := (hl3 p raw).mp h3
        simp only [partMatch] at h2 h4
        cases ht : textOf x lib tr p m'.raw with
        | none => rw [ht] at h2; cases h2
        | some t =>
          rw [ht] at h2
          exact .inr ⟨m', p, t, h5, (hf2 p).mp h4, (reads_iff ..).mpr ht, (keysMatch_iff hx ..).mp h2⟩
      · rintro (h | ⟨m', p, t, h1, h2, h3, h4⟩)
        · exact (hsub (hs.mpr h)).elim
        · refine ⟨(p, m'.raw), List.mem_filter.mpr ⟨(hl3 p _).mpr ⟨m', rfl, h1⟩, (hf2 p).mpr h2⟩, ?_⟩
          simp only [partMatch, (reads_iff ..).mp h3]
          exact (keysMatch_iff hx ..).mpr h4

/-- C66, `:count`: the number of selected parts is compared with the keys. -/
theorem body_count {x : Ext F} (hx : x.Ok) (lib : Lib) (isNot : Bool) (c : Comparator) (r : Tests.Rel)
    (tr : Transform F) (htr : tr.Proper x) {msg : Msg} (hmsg : Forward msg)
    (part : Nat) (keys : List (Val F)) :
    ∃ b n l, (∀ fuel, n ≤ fuel → bodyTest x lib isNot c (.count r) tr none msg part fuel keys = some (b ^^ isNot)) ∧
      Below msg [part] l ∧
      ∃ sel : List (Part × Bytes), sel.Sublist l ∧ (∀ p ∈ l, p ∈ sel ↔ Selected x p.1 tr) ∧
      (b = true ↔ ∃ k ∈ keys, Tests.NumSat x.flt (.int sel.length) (Tests.number x k) r) := by
  obtain ⟨fs, hf1, hf2⟩ := selected_filters x tr htr
  obtain ⟨l, n, hl1, hl2, hl3⟩ := nested_parts (keep x fs) hmsg part
  refine ⟨Tests.countTest x r (l.filter fun p => keep x fs p.1).length keys, n, l, fun fuel hfu => ?_, hl1,
    l.filter fun p => keep x fs p.1, List.filter_sublist, fun p hp => ?_, Tests.countTest_iff hx ..⟩
  · rw [bodyTest, if_neg (by simp [subjectMatch]), hf1]
    simp only [hl2 fuel hfu, Option.map_some, partsResult]
  · rw [List.mem_filter, hf2]
    exact and_iff_right hp

/-! ## Disagreements -/

/-- `:content` with an item that is no content type is false whatever the others are; by RFC 5173 such an item just
selects nothing. -/
theorem improper_type (x : Ext F) (hx : x.Ok) (hc : ∀ t, x.eqIgnoreCase t t = true) (lib : Lib) (i : Info)
    (hi : i.ctype = none) (raw : Bytes) :
    (∀ fuel, bodyTest x lib false .octet .is (.content [.str "text/plain".toList, .str "/".toList]) none
      ⟨raw, [.text i ['a']]⟩ 0 fuel [.str ['a']] = some false) ∧
    Selected x (.text i ['a']) (.content [.str "text/plain".toList, .str "/".toList]) ∧
    Reads x lib raw (.content [.str "text/plain".toList, .str "/".toList]) (.text i ['a']) ['a'] ∧
    Holds x .octet .is (.text ['a']) (.val (.str ['a'])) := by
  refine ⟨fun fuel => rfl, ⟨_, List.mem_cons_self, ?_⟩, .contentText, rfl⟩
  exact .both (a := "text".toList) (b := "plain".toList) (by decide) (by decide) (by decide) (by decide) (.text hi)
    (hc _) (hc _)

/-- An empty item of `:content` selects all parts by RFC 5173, but is ignored, with those after it, if it is not the
first. -/
theorem empty_type (x : Ext F) (hc : x.eqIgnoreCase "image".toList "text".toList = false) (lib : Lib) (i : Info)
    (hi : i.ctype = none) (raw : Bytes) :
    bodyTest x lib false .octet .is (.content [.str "image".toList, .str []]) none
      ⟨raw, [.text i ['a']]⟩ 0 3 [.str ['a']] = some false ∧
    Selected x (.text i ['a']) (.content [.str "image".toList, .str []]) := by
  refine ⟨?_, ⟨.str [], by simp, .all⟩⟩
  have hf : (Transform.content [Val.str "image".toList, .str []] : Transform F).filters x =
      some [.type "image".toList] := rfl
  have hk : keep x [.type "image".toList] (.text i ['a']) = false := by
    simp only [keep, Part.ctype, Part.info, hi, List.isEmpty_cons, List.any_cons, List.any_nil, Filter.accepts, hc,
      Bool.or_self]
  rw [bodyTest, hf]
  simp only [subjectMatch, walk, List.getElem?_cons_zero, hk]
  rfl

/-- If nothing comes before the first part of a multipart, the first part is taken for the text before the parts. -/
theorem part_taken_for_prologue :
    around ['b'] "--b\n\nfirst\n--b\n\nsecond\n--b--\n".toList = "--b\n\nfirst\n".toList := by decide +kernel

/-- If a multipart has no parts, the text after it is lost. -/
theorem epilogue_lost : around ['b'] "pro\n--b--\nepi".toList = "pro".toList := by decide +kernel

/-! ## Examples -/

/-- A multipart with a text and an enclosed message, which has a text of its own. -/
def exMsg : Msg :=
  ⟨[1, 2, 3, 4], [.multipart ⟨none, 0, 0, 4⟩ [1, 2], .text ⟨none, 0, 1, 2⟩ ['a'],
    .message ⟨none, 0, 2, 4⟩ [3, 4] [.html ⟨none, 0, 1, 2⟩ ['b']]]⟩

theorem exForward : Forward exMsg := by
  refine .mk (fun id i subs h s hs => ?_) (fun id i raw parts h => ?_)
  · match id, h with
    | 0, h => cases h; simp at hs; omega
    | 1, h => cases h
    | 2, h => cases h
    | n + 3, h => cases h
  · match id, h with
    | 0, h => cases h
    | 1, h => cases h
    | 2, h =>
      cases h
      refine .mk (fun id i subs h => ?_) (fun id i raw parts h => ?_)
      · match id, h with
        | 0, h => cases h
        | n + 1, h => cases h
      · match id, h with
        | 0, h => cases h
        | n + 1, h => cases h
    | n + 3, h => cases h

example : (walk (fun _ => true) 9 exMsg [0] []).map (·.map fun p => (p.1.ctype.1.asString, p.2)) =
    some [("multipart", [1, 2, 3, 4]), ("text", [1, 2, 3, 4]), ("message", [1, 2, 3, 4]), ("text", [3, 4])] := by
  decide +kernel

example : Inside exMsg 0 ⟨[3, 4], [.html ⟨none, 0, 1, 2⟩ ['b']]⟩ (.html ⟨none, 0, 1, 2⟩ ['b']) :=
  .sub rfl (by decide) (.enclosed (id := 2) rfl (.self rfl))

/-- Libraries for the examples. -/
def exLib : Lib := ⟨fun b => b.map fun u => Char.ofNat (u.toNat + 48), fun b => some (b.map fun u => Char.ofNat u.toNat), id⟩

example : bodyTest Tests.exExt exLib false .octet .is (.content [.str "text/html".toList]) none exMsg 0 9 [.str ['b']] =
    some true := by decide +kernel

example : bodyTest Tests.exExt exLib false .octet .is (.content [.str "text/plain".toList]) none exMsg 0 9 [.str ['b']] =
    some false := by decide +kernel

example : bodyTest Tests.exExt exLib true .octet .contains .raw none exMsg 0 9 [.str "34".toList] = some false := by
  decide +kernel

example : bodyTest Tests.exExt exLib false .octet (.count .eq) .text none exMsg 0 9 [.str ['4']] = some true := by
  decide +kernel

example : (Transform.content [.str "text/html".toList, .str ['a']] : Transform Int).Proper Tests.exExt := by
  refine .inl ⟨by simp, fun t ht => ?_⟩
  rcases List.mem_cons.mp ht with rfl | ht
  · exact .both (a := "text".toList) (b := "html".toList) (by decide) (by decide) (by decide) (by decide)
  · cases List.mem_singleton.mp ht
    exact .main (by decide) (by decide)

example : Around ['b'] "pro\n--b\nx\n--b--\nepi".toList "pro\nepi".toList := (around_iff ..).mpr (by decide +kernel)

end Sieve.Body
