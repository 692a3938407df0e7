import Verif.HvarEval

/-!
# C88: the values of the other parts of a header, and of all headers
-/

namespace Sieve.Hvar

open Scope (Name ascii)

variable {N R : Type}

/-- The bytes from `a` to `b` are `t`. -/
def Between (raw : List UInt8) (a b : Nat) (t : List UInt8) : Prop :=
  ∃ pre post, raw = pre ++ t ++ post ∧ pre.length = a ∧ (pre ++ t).length = b

theorem get_iff (raw : List UInt8) (a b : Nat) (t : List UInt8) : get raw a b = some t ↔ Between raw a b t := by
  unfold get
  constructor
  · intro h
    split at h
    · rename_i hab
      injection h with h
      refine ⟨raw.take a, raw.drop b, ?_, by simp; omega, ?_⟩
      · have : raw.take a ++ (raw.take b).drop a = raw.take b := by
          have e : raw.take a = (raw.take b).take a := by rw [List.take_take, Nat.min_eq_left hab.1]
          rw [e, List.take_append_drop]
        rw [← h, this, List.take_append_drop]
      · rw [← h]
        simp
        omega
    · cases h
  · rintro ⟨pre, post, rfl, rfl, rfl⟩
    rw [if_pos ⟨by simp, by simp⟩, List.take_left' rfl, List.drop_left' rfl]

theorem get_none (raw : List UInt8) (a b : Nat) : get raw a b = none ↔ ∀ t, ¬ Between raw a b t := by
  simp only [← get_iff]
  cases get raw a b <;> simp

/-- The value of a part of a header that has one value at most. -/
inductive Single (x : Ext N R) (raw : List UInt8) (hd : Header N R) : HPart → Option Scalar → Prop where
  /-- the time of a date -/
  | date {t} : hd.value = .dateTime t → Single x raw hd .date (some (.int t))
  /-- of another header, read as a date -/
  | dateRead {b t} : (∀ t, hd.value ≠ .dateTime t) → Between raw hd.offStart hd.offEnd b → x.parseDate b = some t →
      Single x raw hd .date (some (.int t))
  | noDate : (∀ t, hd.value ≠ .dateTime t) → (∀ b, Between raw hd.offStart hd.offEnd b → x.parseDate b = none) →
      Single x raw hd .date none
  | type {ct} : hd.value = .contentType ct → Single x raw hd (.contentType .type) (some (.str ct.type))
  | subtype {ct st} : hd.value = .contentType ct → ct.subtype = some st → Single x raw hd (.contentType .subtype) (some (.str st))
  | noSubtype {ct} : hd.value = .contentType ct → ct.subtype = none → Single x raw hd (.contentType .subtype) none
  /-- the first attribute of that name -/
  | attr {ct n pre a v post} : hd.value = .contentType ct → ct.attributes = pre ++ (a, v) :: post → ascii a = ascii n →
      (∀ b ∈ pre, ascii b.1 ≠ ascii n) → Single x raw hd (.contentType (.attribute n)) (some (.str v))
  | noAttr {ct n} : hd.value = .contentType ct → (∀ b ∈ ct.attributes, ascii b.1 ≠ ascii n) →
      Single x raw hd (.contentType (.attribute n)) none
  | noType {p} : (∀ ct, hd.value ≠ .contentType ct) → Single x raw hd (.contentType p) none
  | received {p r} : hd.value = .received r → Single x raw hd (.received p) (x.received p r)
  | noReceived {p} : (∀ r, hd.value ≠ .received r) → Single x raw hd (.received p) none
  /-- the text of a content type -/
  | typeText {ct} : hd.value = .contentType ct → ct.subtype = none → Single x raw hd .text (some (.str ct.type))
  | typesText {ct st} : hd.value = .contentType ct → ct.subtype = some st →
      Single x raw hd .text (some (.str (ct.type ++ ['/'] ++ st)))
  /-- the text of a date is what is written -/
  | dateText {t b s} : hd.value = .dateTime t → Between raw hd.offStart hd.offEnd b → x.utf8 b = some s →
      Single x raw hd .text (some (.str (x.trim s)))
  | noDateText {t} : hd.value = .dateTime t → (∀ b, Between raw hd.offStart hd.offEnd b → x.utf8 b = none) →
      Single x raw hd .text none
  /-- a `Received` header and an empty one have no text -/
  | receivedText {r} : hd.value = .received r → Single x raw hd .text none
  | emptyText : hd.value = .empty → Single x raw hd .text none
  /-- addresses of a header that has none and cannot be read as addresses -/
  | noAddress {p} : (∀ l, hd.value ≠ .address l) → (∀ t, hd.value ≠ .text t) → Single x raw hd (.address p) none
  | unreadAddress {p t} : hd.value = .text t → (∀ b, Between raw hd.offStart hd.offEnd b → x.parseAddress b = none) →
      Single x raw hd (.address p) none

theorem bind_none {α β : Type} {o : Option α} {f : α → Option β} (h : ∀ b, o = some b → f b = none) : o.bind f = none := by
  cases o with
  | none => rfl
  | some b => exact h b rfl

/-- **C88** Such a part has this value whatever the index, and the empty one if it has none. -/
theorem single_value (x : Ext N R) (h : HVar N) (hd : Header N R) (raw : List UInt8) {v : Option Scalar}
    (hv : Single x raw hd h.part v) : evalPart x h hd raw = some [v.getD (.str [])] := by
  generalize hp : h.part = part at hv
  cases hv with
  | date e => simp only [evalPart, evalPart', hp, e, Option.map_some]; rfl
  | dateRead e hb hd' =>
    simp only [evalPart, evalPart', hp, Option.map_some]
    cases hv : hd.value with
    | dateTime t => exact absurd hv (e t)
    | _ => simp only [(get_iff ..).2 hb, Option.bind_some, hd', Option.map_some, Option.getD_some]
  | noDate e hb =>
    have : (get raw hd.offStart hd.offEnd).bind x.parseDate = none := bind_none fun b h => hb b ((get_iff ..).1 h)
    simp only [evalPart, evalPart', hp, Option.map_some]
    cases hv : hd.value with
    | dateTime t => exact absurd hv (e t)
    | _ => simp only [this, Option.map_none]; rfl
  | type e => simp only [evalPart, evalPart', hp, e, Option.map_some]; rfl
  | subtype e e2 => simp only [evalPart, evalPart', hp, e, e2, Option.map_some]; rfl
  | noSubtype e e2 => simp only [evalPart, evalPart', hp, e, e2, Option.map_some]; rfl
  | @attr ct n pre a v post e e2 e3 e4 =>
    have : (ct.attributes.find? fun b => ascii b.1 = ascii n) = some (a, v) := by
      rw [e2, List.find?_append, List.find?_eq_none.2 (fun b hb => by simpa using e4 b hb), Option.none_or, List.find?_cons_of_pos (by simpa using e3)]
    simp only [evalPart, evalPart', hp, e, this, Option.map_some]; rfl
  | @noAttr ct n e e2 =>
    have : (ct.attributes.find? fun b => ascii b.1 = ascii n) = none := List.find?_eq_none.2 (fun b hb => by simpa using e2 b hb)
    simp only [evalPart, evalPart', hp, e, this, Option.map_some]; rfl
  | noType e =>
    simp only [evalPart, evalPart', hp, Option.map_some]
    cases hv : hd.value with
    | contentType ct => exact absurd hv (e ct)
    | _ => rfl
  | received e => simp only [evalPart, evalPart', hp, e, Option.map_some]; rfl
  | noReceived e =>
    simp only [evalPart, evalPart', hp, Option.map_some]
    cases hv : hd.value with
    | received r => exact absurd hv (e r)
    | _ => rfl
  | typeText e e2 => simp only [evalPart, evalPart', hp, e, e2, Option.map_some]; rfl
  | typesText e e2 =>
    simp only [evalPart, evalPart', hp, e, e2, Option.map_some, Option.getD_some, List.append_assoc]; rfl
  | dateText e hb hu =>
    simp only [evalPart, evalPart', hp, e, (get_iff ..).2 hb, Option.bind_some, hu, Option.map_some]; rfl
  | noDateText e hb =>
    have : (get raw hd.offStart hd.offEnd).bind x.utf8 = none := bind_none fun b h => hb b ((get_iff ..).1 h)
    simp only [evalPart, evalPart', hp, e, this, Option.map_some, Option.map_none]; rfl
  | receivedText e => simp only [evalPart, evalPart', hp, e, Option.map_some]; rfl
  | emptyText e => simp only [evalPart, evalPart', hp, e, Option.map_some]; rfl
  | noAddress e1 e2 =>
    simp only [evalPart, evalPart', hp, Option.map_some]
    cases hv : hd.value with
    | address l => exact absurd hv (e1 l)
    | text t => exact absurd hv (e2 t)
    | _ => rfl
  | unreadAddress e hb =>
    have : (get raw hd.offStart hd.offEnd).bind x.parseAddress = none := bind_none fun b h => hb b ((get_iff ..).1 h)
    simp only [evalPart, evalPart', hp, e, this, Option.map_some]; rfl

/-- **C88** Every part of every header has a value of one of these kinds: items, the text of a header that is one, the
raw text, the raw name, the identifiers, whether it is there, or a single value. -/
theorem part_covered (x : Ext N R) (h : HVar N) (hd : Header N R) (raw : List UInt8) :
    (∃ items, Items x raw h.part hd items) ∨ (h.part = .text ∧ ∃ t, hd.value = .text t) ∨
      h.part ∈ [HPart.raw, .rawName, .id, .«exists»] ∨ ∃ v, Single x raw hd h.part v := by
  have parts : ∀ p (l : List Addr), ∃ ts, List.Forall₂ (PartOf x p) l ts := by
    intro p l
    induction l with
    | nil => exact ⟨[], .nil⟩
    | cons a l ih =>
      obtain ⟨ts, ih⟩ := ih
      exact ⟨p.evalStrict x a :: ts, .cons ((partOf_iff x p a _).2 rfl) ih⟩
  have showns : ∀ (l : List Addr), ∃ ts, List.Forall₂ Shown l ts := by
    intro l
    induction l with
    | nil => exact ⟨[], .nil⟩
    | cons a l ih =>
      obtain ⟨ts, ih⟩ := ih
      obtain ⟨s, hs⟩ : ∃ s, Shown a s := by
        obtain ⟨n, e⟩ := a
        cases n <;> cases e
        · exact ⟨_, .none⟩
        · exact ⟨_, .address⟩
        · exact ⟨_, .name⟩
        · exact ⟨_, .both⟩
      exact ⟨s :: ts, .cons hs ih⟩
  cases hp : h.part with
  | text =>
    cases hv : hd.value with
    | text t => exact .inr (.inl ⟨rfl, t, rfl⟩)
    | textList l => exact .inl ⟨_, .texts hv⟩
    | contentType ct =>
      cases hs : ct.subtype with
      | none => exact .inr (.inr (.inr ⟨_, .typeText hv hs⟩))
      | some st => exact .inr (.inr (.inr ⟨_, .typesText hv hs⟩))
    | address l =>
      obtain ⟨ts, hts⟩ := showns l
      exact .inl ⟨_, .shown hv hts⟩
    | dateTime t =>
      refine .inr (.inr (.inr ?_))
      by_cases hb : ∃ b s, Between raw hd.offStart hd.offEnd b ∧ x.utf8 b = some s
      · obtain ⟨b, s, h1, h2⟩ := hb
        exact ⟨_, .dateText hv h1 h2⟩
      · refine ⟨_, .noDateText hv fun b h1 => ?_⟩
        cases hu : x.utf8 b with
        | none => rfl
        | some s => exact absurd ⟨b, s, h1, hu⟩ hb
    | received r => exact .inr (.inr (.inr ⟨_, .receivedText hv⟩))
    | empty => exact .inr (.inr (.inr ⟨_, .emptyText hv⟩))
  | address p =>
    by_cases h1 : ∃ l, hd.value = .address l
    · obtain ⟨l, hv⟩ := h1
      obtain ⟨ts, hts⟩ := parts p l
      exact .inl ⟨_, .parts hv hts⟩
    · by_cases h2 : ∃ t, hd.value = .text t
      · obtain ⟨t, hv⟩ := h2
        by_cases hb : ∃ b l, Between raw hd.offStart hd.offEnd b ∧ x.parseAddress b = some l
        · obtain ⟨b, l, h3, h4⟩ := hb
          obtain ⟨ts, hts⟩ := parts p l
          exact .inl ⟨_, .parsed hv ((get_iff ..).2 h3) h4 hts⟩
        · refine .inr (.inr (.inr ⟨_, .unreadAddress hv fun b h3 => ?_⟩))
          cases hu : x.parseAddress b with
          | none => rfl
          | some s => exact absurd ⟨b, s, h3, hu⟩ hb
      · exact .inr (.inr (.inr ⟨_, .noAddress (fun l e => h1 ⟨l, e⟩) (fun t e => h2 ⟨t, e⟩)⟩))
  | date =>
    refine .inr (.inr (.inr ?_))
    by_cases h1 : ∃ t, hd.value = .dateTime t
    · obtain ⟨t, hv⟩ := h1
      exact ⟨_, .date hv⟩
    · have h1 : ∀ t, hd.value ≠ .dateTime t := fun t e => h1 ⟨t, e⟩
      by_cases hb : ∃ b t, Between raw hd.offStart hd.offEnd b ∧ x.parseDate b = some t
      · obtain ⟨b, t, h3, h4⟩ := hb
        exact ⟨_, .dateRead h1 h3 h4⟩
      · refine ⟨_, .noDate h1 fun b h3 => ?_⟩
        cases hu : x.parseDate b with
        | none => rfl
        | some s => exact absurd ⟨b, s, h3, hu⟩ hb
  | id => exact .inr (.inr (.inl (by simp)))
  | raw => exact .inr (.inr (.inl (by simp)))
  | rawName => exact .inr (.inr (.inl (by simp)))
  | «exists» => exact .inr (.inr (.inl (by simp)))
  | contentType p =>
    refine .inr (.inr (.inr ?_))
    by_cases h1 : ∃ ct, hd.value = .contentType ct
    · obtain ⟨ct, hv⟩ := h1
      cases p with
      | type => exact ⟨_, .type hv⟩
      | subtype =>
        cases hs : ct.subtype with
        | none => exact ⟨_, .noSubtype hv hs⟩
        | some st => exact ⟨_, .subtype hv hs⟩
      | «attribute» n =>
        cases hf : ct.attributes.find? fun b => ascii b.1 = ascii n with
        | none => exact ⟨_, .noAttr hv fun b hb => by simpa using List.find?_eq_none.1 hf b hb⟩
        | some a =>
          obtain ⟨h3, pre, post, h4, h5⟩ := List.find?_eq_some_iff_append.1 hf
          exact ⟨_, .attr (v := a.2) hv h4 (by simpa using h3) fun b hb => by simpa using h5 b hb⟩
    · exact ⟨_, .noType fun ct e => h1 ⟨ct, e⟩⟩
  | received p =>
    refine .inr (.inr (.inr ?_))
    by_cases h1 : ∃ r, hd.value = .received r
    · obtain ⟨r, hv⟩ := h1
      exact ⟨_, .received hv⟩
    · exact ⟨_, .noReceived fun r e => h1 ⟨r, e⟩⟩

/-! ### Identifiers -/

/-- The identifiers of a header: of `Message-ID` and `Resent-Message-ID` those found, of an unknown header those that are read
from its text, of all others none. -/
inductive IdsOf (x : Ext N R) (raw : List UInt8) (hd : Header N R) : List (List Char) → Prop where
  | one {t} : x.isMessageId hd.name = true → hd.value = .text t → IdsOf x raw hd [t]
  | many {l} : x.isMessageId hd.name = true → hd.value = .textList l → IdsOf x raw hd l
  | none : x.isMessageId hd.name = true → (∀ t, hd.value ≠ .text t) → (∀ l, hd.value ≠ .textList l) → IdsOf x raw hd [[]]
  | read {b l} : x.isMessageId hd.name = false → x.isOther hd.name = true →
      (Between raw hd.offStart hd.offEnd b ∨ ((∀ t, ¬ Between raw hd.offStart hd.offEnd t) ∧ b = [])) →
      (x.parseId b = .many l ∨ (∃ t, x.parseId b = .one t ∧ l = [t]) ∨ (x.parseId b = .none ∧ l = [[]])) → IdsOf x raw hd l
  | other : x.isMessageId hd.name = false → x.isOther hd.name = false → IdsOf x raw hd [[]]

/-- **C88** The identifiers of a header, whatever the index. -/
theorem id_value (x : Ext N R) (h : HVar N) (hd : Header N R) (raw : List UInt8) (hp : h.part = .id) (l : List Scalar) :
    evalPart x h hd raw = some l ↔ ∃ ids, IdsOf x raw hd ids ∧ l = ids.map .str := by
  have complete : ∃ ids, IdsOf x raw hd ids ∧ evalPart x h hd raw = some (ids.map .str) := by
    simp only [evalPart, evalPart', hp, Option.map_some]
    cases h1 : x.isMessageId hd.name with
    | true =>
      rw [if_pos rfl]
      cases hv : hd.value with
      | text t => exact ⟨[t], .one h1 hv, rfl⟩
      | textList l => exact ⟨l, .many h1 hv, rfl⟩
      | _ => exact ⟨[[]], .none h1 (by simp [hv]) (by simp [hv]), rfl⟩
    | false =>
      rw [if_neg (by simp)]
      cases h2 : x.isOther hd.name with
      | true =>
        rw [if_pos rfl]
        have hb : Between raw hd.offStart hd.offEnd ((get raw hd.offStart hd.offEnd).getD []) ∨
            ((∀ t, ¬ Between raw hd.offStart hd.offEnd t) ∧ (get raw hd.offStart hd.offEnd).getD [] = []) := by
          cases hg : get raw hd.offStart hd.offEnd with
          | none => exact .inr ⟨(get_none ..).1 hg, rfl⟩
          | some b => exact .inl ((get_iff ..).1 hg)
        cases hi : x.parseId ((get raw hd.offStart hd.offEnd).getD []) with
        | one t => exact ⟨[t], .read h1 h2 hb (.inr (.inl ⟨t, hi, rfl⟩)), rfl⟩
        | many l => exact ⟨l, .read h1 h2 hb (.inl hi), rfl⟩
        | none => exact ⟨[[]], .read h1 h2 hb (.inr (.inr ⟨hi, rfl⟩)), rfl⟩
      | false =>
        rw [if_neg (by simp)]
        exact ⟨[[]], .other h1 h2, rfl⟩
  have unique : ∀ {i j}, IdsOf x raw hd i → IdsOf x raw hd j → i = j := by
    have bytes : ∀ {b c}, (Between raw hd.offStart hd.offEnd b ∨ ((∀ t, ¬ Between raw hd.offStart hd.offEnd t) ∧ b = [])) →
        (Between raw hd.offStart hd.offEnd c ∨ ((∀ t, ¬ Between raw hd.offStart hd.offEnd t) ∧ c = [])) → b = c := by
      rintro b c (h1 | ⟨h1, rfl⟩) (h2 | ⟨h2, rfl⟩)
      · rw [← get_iff] at h1 h2
        rw [h1] at h2
        exact Option.some.inj h2
      · exact absurd h1 (h2 b)
      · exact absurd h2 (h1 c)
      · rfl
    intro i j hi hj
    cases hi <;> cases hj
    case read.read h1 h2 a1 a2 _ _ _ c1 c2 =>
      have := bytes a1 c1
      subst this
      rcases a2 with a | ⟨t, a, rfl⟩ | ⟨a, rfl⟩ <;> rcases c2 with c | ⟨t', c, rfl⟩ | ⟨c, rfl⟩ <;> simp_all
    all_goals simp_all
  obtain ⟨ids, hi, he⟩ := complete
  rw [he]
  constructor
  · intro h
    injection h with h
    exact ⟨ids, hi, h.symm⟩
  · rintro ⟨ids', hi', rfl⟩
    rw [unique hi hi']

/-! ### All headers -/

/-- The value a header adds to `header.*`: with `raw` all of it, as text its name and its text, and otherwise as usual. -/
inductive Any (x : Ext N R) (h : HVar N) (raw : List UInt8) (hd : Header N R) : List Scalar → Prop where
  | raw {b} : h.part = .raw → Between raw hd.offField hd.offEnd b → Any x h raw hd [.str (x.lossy (sanitize b))]
  | noRaw : h.part = .raw → (∀ b, ¬ Between raw hd.offField hd.offEnd b) → Any x h raw hd []
  | text {t} : h.part = .text → hd.value = .text t → Any x h raw hd [.str (x.nameText hd.name ++ [':', ' '] ++ t)]
  | read {b} {t : List Char} : h.part = .text → (∀ t, hd.value ≠ .text t) →
      (Between raw hd.offStart hd.offEnd b ∨ ((∀ t, ¬ Between raw hd.offStart hd.offEnd t) ∧ b = [])) →
      x.parseUnstructured b = some t → Any x h raw hd [.str (x.nameText hd.name ++ [':', ' '] ++ t)]
  | unread {b} : h.part = .text → (∀ t, hd.value ≠ .text t) →
      (Between raw hd.offStart hd.offEnd b ∨ ((∀ t, ¬ Between raw hd.offStart hd.offEnd t) ∧ b = [])) →
      x.parseUnstructured b = none → Any x h raw hd []
  | other {l} : h.part ≠ .raw → h.part ≠ .text → evalPart x h hd raw = some l → Any x h raw hd l

/-- **C88** What a header adds to the value of `header.*`. -/
theorem any_value (x : Ext N R) (h : HVar N) (hd : Header N R) (raw : List UInt8) {l : List Scalar} (ha : Any x h raw hd l) :
    evalAny x h hd raw = some l := by
  have bytes : ∀ {b}, (Between raw hd.offStart hd.offEnd b ∨ ((∀ t, ¬ Between raw hd.offStart hd.offEnd t) ∧ b = [])) →
      (get raw hd.offStart hd.offEnd).getD [] = b := by
    rintro b (h1 | ⟨h1, rfl⟩)
    · rw [(get_iff ..).2 h1]; rfl
    · rw [(get_none ..).2 h1]; rfl
  unfold evalAny
  cases ha with
  | raw hp hb => simp only [hp, (get_iff ..).2 hb]
  | noRaw hp hb => simp only [hp, (get_none ..).2 hb]
  | text hp hv => simp only [hp, hv]; rfl
  | read hp hv hb hu =>
    simp only [hp, bytes hb, hu]
    rfl
  | unread hp hv hb hu =>
    simp only [hp, bytes hb, hu]
  | other h1 h2 he =>
    split
    · rename_i h; exact absurd h h1
    · rename_i h; exact absurd h h2
    · exact he

/-- **C88** Every header adds something or nothing in one of these ways, unless its value is a panic. -/
theorem any_covered (x : Ext N R) (h : HVar N) (hd : Header N R) (raw : List UInt8) {l : List Scalar}
    (he : evalAny x h hd raw = some l) : Any x h raw hd l := by
  have key : (∃ l, Any x h raw hd l) ∨ evalAny x h hd raw = none := by
    by_cases h1 : h.part = .raw
    · by_cases hb : ∃ b, Between raw hd.offField hd.offEnd b
      · obtain ⟨b, hb⟩ := hb
        exact .inl ⟨_, .raw h1 hb⟩
      · exact .inl ⟨_, .noRaw h1 fun b e => hb ⟨b, e⟩⟩
    · by_cases h2 : h.part = .text
      · by_cases h3 : ∃ t, hd.value = .text t
        · obtain ⟨t, h3⟩ := h3
          exact .inl ⟨_, .text h2 h3⟩
        · have h3 : ∀ t, hd.value ≠ .text t := fun t e => h3 ⟨t, e⟩
          obtain ⟨b, hb⟩ : ∃ b, Between raw hd.offStart hd.offEnd b ∨ ((∀ t, ¬ Between raw hd.offStart hd.offEnd t) ∧ b = []) := by
            by_cases hb : ∃ b, Between raw hd.offStart hd.offEnd b
            · obtain ⟨b, hb⟩ := hb
              exact ⟨b, .inl hb⟩
            · exact ⟨[], .inr ⟨fun t e => hb ⟨t, e⟩, rfl⟩⟩
          cases hu : x.parseUnstructured b with
          | none => exact .inl ⟨_, .unread h2 h3 hb hu⟩
          | some t => exact .inl ⟨_, .read h2 h3 hb hu⟩
      · cases hv : evalPart x h hd raw with
        | none =>
          right
          unfold evalAny
          split
          · rename_i h; exact absurd h h1
          · rename_i h; exact absurd h h2
          · exact hv
        | some l => exact .inl ⟨l, .other h1 h2 hv⟩
  rcases key with ⟨l', hl⟩ | hn
  · have := any_value x h hd raw hl
    rw [he] at this
    injection this with this
    rwa [this]
  · rw [he] at hn
    cases hn

/-! ### Cases -/

def ctHeader : Header (List Char) Unit := ⟨['x'], .contentType ⟨"text".toList, some "plain".toList, [("charset".toList, "a".toList), ("CharSet".toList, "b".toList)]⟩, 0, 2, 6⟩

example : Single noExt someRaw ctHeader (.contentType (.attribute "CHARSET".toList)) (some (.str "a".toList)) :=
  .attr (pre := []) rfl rfl (by decide +kernel) (by simp)
example : Single noExt someRaw ctHeader .text (some (.str "text/plain".toList)) :=
  .typesText (ct := ⟨"text".toList, some "plain".toList, _⟩) (st := "plain".toList) rfl rfl
example : Between someRaw 2 6 [32, 97, 13, 10] := (get_iff ..).1 (by decide +kernel)
example : Any noExt ⟨[], .text, 0, 0⟩ someRaw hdrA [.str "x: a".toList] := by
  have : noExt.nameText hdrA.name = ['x'] := rfl
  have h := Any.text (x := noExt) (h := ⟨[], .text, 0, 0⟩) (raw := someRaw) (hd := hdrA) (t := ['a']) rfl rfl
  rwa [this] at h

/-- **C88 fails**, if the identifiers of all headers are to be found: `References` and `In-Reply-To`, which are neither
`Message-ID` nor unknown, have none. -/
theorem references_no_id (x : Ext N R) (h : HVar N) (hd : Header N R) (raw : List UInt8) (hp : h.part = .id)
    (h1 : x.isMessageId hd.name = false) (h2 : x.isOther hd.name = false) : evalPart x h hd raw = some [.str []] :=
  (id_value x h hd raw hp _).2 ⟨_, .other h1 h2, rfl⟩

/-- **C88 fails**, if the index is to pick an identifier: it is ignored. -/
theorem id_index_ignored (x : Ext N R) (h : HVar N) (i : Int) (hd : Header N R) (raw : List UInt8) (hp : h.part = .id) :
    evalPart x { h with indexPart := i } hd raw = evalPart x h hd raw := by
  simp only [evalPart, evalPart', hp]

end Sieve.Hvar
