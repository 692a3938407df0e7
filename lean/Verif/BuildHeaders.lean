import Verif.BuildReplace

/-!
# The header fields of a replaced message

A message has exactly one `From` and one `Date`, and at most one `Subject` and one `Message-ID` (RFC 5322, 3.6).
-/

namespace Sieve.Build
open Sieve.Mime (Header)

variable {N : Type}

/-- ASCII lower case -/
def lowerAscii (b : Bytes) : Bytes := b.map fun c => if 65 ≤ c ∧ c ≤ 90 then c + 32 else c

/-- The number of header fields with a name, whatever the case of its letters. -/
def occurrences (hs : List (Header N Val)) (name : Bytes) : Nat := (hs.filter fun h => lowerAscii h.value.spelling = name).length

theorem occurrences_append (a b : List (Header N Val)) (name : Bytes) : occurrences (a ++ b) name = occurrences a name + occurrences b name := by
  simp [occurrences]

theorem occurrences_cons (h : Header N Val) (hs : List (Header N Val)) (name : Bytes) :
    occurrences (h :: hs) name = (if lowerAscii h.value.spelling = name then 1 else 0) + occurrences hs name := by
  unfold occurrences
  rw [List.filter_cons]
  by_cases e : lowerAscii h.value.spelling = name
  · simp [e]; omega
  · simp [e]

/-- The parser has recognised the header fields by their names. -/
structure Recognised (x : Names N) (h : Header N Val) : Prop where
  subject : x.kind h = .subject ↔ lowerAscii h.value.spelling = ascii "subject"
  «from» : x.kind h = .from ↔ lowerAscii h.value.spelling = ascii "from"
  date : x.kind h = .date ↔ lowerAscii h.value.spelling = ascii "date"
  messageId : lowerAscii h.value.spelling = ascii "message-id" → x.kind h = .other

theorem kept_occurrences (x : Names N) (r : Replacement) (hs : List (Header N Val)) (hr : ∀ h ∈ hs, Recognised x h) :
    occurrences (hs.filterMap (keepField x r)) (ascii "from") = (if r.from.isSome then 0 else occurrences hs (ascii "from"))
    ∧ occurrences (hs.filterMap (keepField x r)) (ascii "subject") = (if r.subject.isSome then 0 else occurrences hs (ascii "subject"))
    ∧ occurrences (hs.filterMap (keepField x r)) (ascii "date") = occurrences hs (ascii "date")
    ∧ occurrences (hs.filterMap (keepField x r)) (ascii "message-id") = 0 := by
  induction hs with
  | nil => simp [occurrences]
  | cons h hs ih =>
    obtain ⟨i1, i2, i3, i4⟩ := ih fun h' hh => hr h' (List.mem_cons_of_mem _ hh)
    have hh := hr h (List.mem_cons_self ..)
    cases hk : x.kind h with
    | subject =>
      have e := hh.subject.mp hk
      have ne1 : ascii "subject" ≠ ascii "from" := by decide
      have ne2 : ascii "subject" ≠ ascii "date" := by decide
      have ne3 : ascii "subject" ≠ ascii "message-id" := by decide
      cases hs' : r.subject.isSome
      · have hkf : keepField x r h = some h := by simp [keepField, hk, hs']
        rw [List.filterMap_cons_some hkf]
        simp only [occurrences_cons, i1, i2, i3, i4, hs', e, ne1, ne2, ne3, if_false, if_true, Bool.false_eq_true, Nat.zero_add, and_self]
      · have hkf : keepField x r h = some (renamed x h (ascii "Original-Subject")) := by simp [keepField, hk, hs']
        have e' : lowerAscii (renamed x h (ascii "Original-Subject")).value.spelling = ascii "original-subject" := by
          show lowerAscii (ascii "Original-Subject") = _
          decide
        have m1 : ascii "original-subject" ≠ ascii "from" := by decide
        have m2 : ascii "original-subject" ≠ ascii "date" := by decide
        have m3 : ascii "original-subject" ≠ ascii "message-id" := by decide
        have m4 : ascii "original-subject" ≠ ascii "subject" := by decide
        rw [List.filterMap_cons_some hkf]
        simp only [occurrences_cons, i1, i2, i3, i4, hs', e, e', m1, m2, m3, m4, ne1, ne2, ne3, if_false, if_true, Bool.false_eq_true, Nat.zero_add, and_self]
    | «from» =>
      have e := hh.from.mp hk
      have ne1 : ascii "from" ≠ ascii "subject" := by decide
      have ne2 : ascii "from" ≠ ascii "date" := by decide
      have ne3 : ascii "from" ≠ ascii "message-id" := by decide
      cases hs' : r.from.isSome
      · have hkf : keepField x r h = some h := by simp [keepField, hk, hs']
        rw [List.filterMap_cons_some hkf]
        simp only [occurrences_cons, i1, i2, i3, i4, hs', e, ne1, ne2, ne3, if_false, if_true, Bool.false_eq_true, Nat.zero_add, and_self]
      · have hkf : keepField x r h = some (renamed x h (ascii "Original-From")) := by simp [keepField, hk, hs']
        have e' : lowerAscii (renamed x h (ascii "Original-From")).value.spelling = ascii "original-from" := by
          show lowerAscii (ascii "Original-From") = _
          decide
        have m1 : ascii "original-from" ≠ ascii "from" := by decide
        have m2 : ascii "original-from" ≠ ascii "date" := by decide
        have m3 : ascii "original-from" ≠ ascii "message-id" := by decide
        have m4 : ascii "original-from" ≠ ascii "subject" := by decide
        rw [List.filterMap_cons_some hkf]
        simp only [occurrences_cons, i1, i2, i3, i4, hs', e, e', m1, m2, m3, m4, ne1, ne2, ne3, if_false, if_true, Bool.false_eq_true, Nat.zero_add, and_self]
    | date =>
      have e := hh.date.mp hk
      have ne1 : ascii "date" ≠ ascii "from" := by decide
      have ne2 : ascii "date" ≠ ascii "subject" := by decide
      have ne3 : ascii "date" ≠ ascii "message-id" := by decide
      have hkf : keepField x r h = some h := by simp [keepField, hk]
      rw [List.filterMap_cons_some hkf]
      simp only [occurrences_cons, i1, i2, i3, i4, e, ne1, ne2, ne3, if_false, if_true, Nat.zero_add, and_self]
    | recipient =>
      have hkf : keepField x r h = some h := by simp [keepField, hk]
      have n1 : lowerAscii h.value.spelling ≠ ascii "subject" := fun e => by have := hh.subject.mpr e; simp [hk] at this
      have n2 : lowerAscii h.value.spelling ≠ ascii "from" := fun e => by have := hh.from.mpr e; simp [hk] at this
      have n3 : lowerAscii h.value.spelling ≠ ascii "date" := fun e => by have := hh.date.mpr e; simp [hk] at this
      have n4 : lowerAscii h.value.spelling ≠ ascii "message-id" := fun e => by have := hh.messageId e; simp [hk] at this
      rw [List.filterMap_cons_some hkf]
      simp only [occurrences_cons, i1, i2, i3, i4, n1, n2, n3, n4, if_false, Nat.zero_add, and_self]
    | other =>
      have hkf : keepField x r h = none := by simp [keepField, hk]
      have n1 : lowerAscii h.value.spelling ≠ ascii "subject" := fun e => by have := hh.subject.mpr e; simp [hk] at this
      have n2 : lowerAscii h.value.spelling ≠ ascii "from" := fun e => by have := hh.from.mpr e; simp [hk] at this
      have n3 : lowerAscii h.value.spelling ≠ ascii "date" := fun e => by have := hh.date.mpr e; simp [hk] at this
      rw [List.filterMap_cons_none hkf]
      simp only [occurrences_cons, i1, i2, i3, i4, n1, n2, n3, if_false, Nat.zero_add, and_self]

theorem date_any (x : Names N) (hs : List (Header N Val)) (hr : ∀ h ∈ hs, Recognised x h) :
    (hs.any fun h => x.kind h = .date) = true ↔ 0 < occurrences hs (ascii "date") := by
  simp only [occurrences, List.any_eq_true, decide_eq_true_eq]
  rw [List.length_pos_iff_exists_mem]
  constructor
  · rintro ⟨h, h1, h2⟩
    exact ⟨h, List.mem_filter.mpr ⟨h1, by simpa using (hr h h1).date.mp h2⟩⟩
  · rintro ⟨h, hm⟩
    obtain ⟨h1, h2⟩ := List.mem_filter.mp hm
    exact ⟨h, h1, (hr h h1).date.mpr (by simpa using h2)⟩

variable [DecidableEq N]

theorem replace_first (x : Names N) (c : Ctx N) {p} (hp : c.msg.parts[0]? = some p) (r : Replacement) (fuel : Nat) {c'}
    (h : replace x c 0 r fuel = some c') : ∃ q, c'.msg.parts[0]? = some q
      ∧ q.headers = p.headers.filterMap (keepField x r) ++ (replaceFields x r p.headers
        ++ if r.mime then [] else [(ascii "Content-Type", ascii "text/plain; charset=utf-8")]).map fun f => newField (x.other f.1) f.1 f.2 := by
  have hn : ∃ ids, Mime.findNestedPartsIds c.msg.mime 0 false fuel = some ids ∧ (∀ i ∈ ids, i ≠ 0 ∧ i < c.msg.parts.length) ∧ ids.Nodup := by
    have hlen : c.msg.mime.length = c.msg.parts.length := by simp [Msg.mime]
    unfold Mime.findNestedPartsIds
    rw [if_pos rfl]
    simp only [Bool.false_eq_true, if_false]
    by_cases h1 : 1 < c.msg.mime.length
    · rw [if_pos h1]
      refine ⟨_, rfl, ?_, List.nodup_range'⟩
      intro i hi
      rw [List.mem_range'_1] at hi
      omega
    · rw [if_neg h1]
      exact ⟨[], rfl, by simp, List.nodup_nil⟩
  obtain ⟨ids, hn, hids, hnd⟩ := hn
  obtain ⟨ps, hps, hr⟩ := removeParts_zero c.msg.parts ids hids hnd
  rw [hp] at hr
  simp only [replace, hn, hps, hr, Option.bind_eq_bind, Option.bind_some, if_true] at h
  injection h with h
  subst h
  exact ⟨_, List.getElem?_set_self (List.getElem?_eq_some_iff.mp hr).1, rfl⟩

/-- **C59.** The header fields of a message after `replace`, if the script gives a `From`: exactly one `From` and one
`Message-ID`; a `Date` if there was none; one `Subject` if a non-empty one is given, and those the message had if none is
given.  All other fields except recipients and trace are gone.

What is missing: without `:from` the message has the `From` of the message and one more, see `replace_two_from`; with an
empty `:subject` it has none, see `replace_no_subject`. -/
theorem replaced_fields_partial (x : Names N) (c : Ctx N) {p} (hp : c.msg.parts[0]? = some p) (r : Replacement)
    (hr : ∀ h ∈ p.headers, Recognised x h) (fuel : Nat) {c'} (h : replace x c 0 r fuel = some c') :
    ∃ q, c'.msg.parts[0]? = some q
      ∧ (r.from.isSome = true → occurrences q.headers (ascii "from") = 1)
      ∧ (∀ s, r.subject = some s → s ≠ [] → occurrences q.headers (ascii "subject") = 1)
      ∧ (r.subject = none → occurrences q.headers (ascii "subject") = occurrences p.headers (ascii "subject"))
      ∧ occurrences q.headers (ascii "date") = max 1 (occurrences p.headers (ascii "date"))
      ∧ occurrences q.headers (ascii "message-id") = 1 := by
  obtain ⟨q, hq, hh⟩ := replace_first x c hp r fuel h
  obtain ⟨k1, k2, k3, k4⟩ := kept_occurrences x r p.headers hr
  have hd := date_any x p.headers hr
  refine ⟨q, hq, ?_⟩
  rw [hh]
  generalize p.headers.filterMap (keepField x r) = ks at *
  have nf : ∀ (f : Bytes × Bytes) (fs : List (Bytes × Bytes)) (n : Bytes), occurrences ((f :: fs).map fun f => newField (x.other f.1) f.1 f.2) n
      = (if lowerAscii f.1 = n then 1 else 0) + occurrences (fs.map fun f => newField (x.other f.1) f.1 f.2) n := by
    intro f fs n
    rw [List.map_cons, occurrences_cons]
    rfl
  have nil : ∀ n, occurrences ([] : List (Header N Val)) n = 0 := fun n => rfl
  have ct1 : lowerAscii (ascii "Content-Type") = ascii "content-type" := by decide
  have ct2 : lowerAscii (ascii "From") = ascii "from" := by decide
  have ct3 : lowerAscii (ascii "Subject") = ascii "subject" := by decide
  have ct4 : lowerAscii (ascii "Date") = ascii "date" := by decide
  have ct5 : lowerAscii (ascii "Message-ID") = ascii "message-id" := by decide
  have mime : ∀ n, n ≠ ascii "content-type" → occurrences ((if r.mime then [] else [(ascii "Content-Type", ascii "text/plain; charset=utf-8")]).map fun f => newField (x.other f.1) f.1 f.2) n = 0 := by
    intro n hn
    cases r.mime
    · simp only [Bool.false_eq_true, if_false, nf, ct1, if_neg (Ne.symm hn), List.map_nil, nil]
    · rfl
  have all : ∀ n, n ≠ ascii "content-type" → occurrences (ks ++ (replaceFields x r p.headers
        ++ if r.mime then [] else [(ascii "Content-Type", ascii "text/plain; charset=utf-8")]).map fun f => newField (x.other f.1) f.1 f.2) n
      = occurrences ks n + ((if ascii "from" = n then 1 else 0) + (match r.subject with
          | some s => if s = [] then 0 else if ascii "subject" = n then 1 else 0
          | none => 0) + (if p.headers.any (fun h => x.kind h = .date) then 0 else if ascii "date" = n then 1 else 0)
          + (if ascii "message-id" = n then 1 else 0)) := by
    intro n hn
    simp only [occurrences_append, List.map_append, mime n hn, replaceFields, nf, List.map_nil, nil, ct2, ct5, Nat.add_zero]
    congr 4
    · cases r.subject with
      | none => rfl
      | some s =>
        dsimp only
        by_cases hs : s = []
        · rw [if_pos hs, if_pos hs]; rfl
        · rw [if_neg hs, if_neg hs, nf, ct3]; rfl
    · by_cases hs : (p.headers.any fun h => x.kind h = .date) = true
      · rw [if_pos hs, if_pos hs]; rfl
      · rw [if_neg hs, if_neg hs, nf, ct4]; rfl
  have subjectFrom : (match r.subject with
          | some s => if s = [] then 0 else if ascii "subject" = ascii "from" then 1 else 0
          | none => 0) = 0 := by
    cases r.subject with
    | none => rfl
    | some s => dsimp only; split <;> rfl
  have subjectDate : (match r.subject with
          | some s => if s = [] then 0 else if ascii "subject" = ascii "date" then 1 else 0
          | none => 0) = 0 := by
    cases r.subject with
    | none => rfl
    | some s => dsimp only; split <;> rfl
  have subjectId : (match r.subject with
          | some s => if s = [] then 0 else if ascii "subject" = ascii "message-id" then 1 else 0
          | none => 0) = 0 := by
    cases r.subject with
    | none => rfl
    | some s => dsimp only; split <;> rfl
  have n1 : ascii "date" ≠ ascii "from" := by decide
  have n2 : ascii "message-id" ≠ ascii "from" := by decide
  have n3 : ascii "from" ≠ ascii "subject" := by decide
  have n4 : ascii "date" ≠ ascii "subject" := by decide
  have n5 : ascii "message-id" ≠ ascii "subject" := by decide
  have n6 : ascii "from" ≠ ascii "date" := by decide
  have n7 : ascii "message-id" ≠ ascii "date" := by decide
  have n8 : ascii "from" ≠ ascii "message-id" := by decide
  have n9 : ascii "date" ≠ ascii "message-id" := by decide
  refine ⟨?_, ?_, ?_, ?_, ?_⟩
  · intro hf
    rw [all _ (by decide), k1, subjectFrom, if_pos hf]
    simp [n1, n2]
  · intro s hs hne
    rw [all _ (by decide), k2, hs]
    simp [n3, n4, n5, hne]
  · intro hs
    rw [all _ (by decide), k2, hs]
    simp [n3, n4, n5]
  · rw [all _ (by decide), k3, subjectDate]
    by_cases hs : (p.headers.any fun h => x.kind h = .date) = true
    · have := hd.mp hs
      rw [if_pos hs]
      simp only [n6, n7, if_false]
      omega
    · have : ¬ 0 < occurrences p.headers (ascii "date") := fun h => hs (hd.mpr h)
      rw [if_neg hs]
      simp only [n6, n7, if_false, if_true]
      omega
  · rw [all _ (by decide), k4, subjectId]
    simp [n8, n9]

theorem sample_recognised : ∀ p, sample.msg.parts[0]? = some p → ∀ h ∈ p.headers, Recognised names h := by
  intro p hp
  injection hp with hp
  subst hp
  intro h hh
  simp only [Part.headers, List.mem_cons, List.not_mem_nil, or_false] at hh
  rcases hh with rfl | rfl <;> exact ⟨by decide, by decide, by decide, by decide⟩

/-- **Negation of C59 (1).** Without `:from`, a message that has a `From` has two afterwards. -/
theorem replace_two_from :
    let m : Ctx Bytes := ⟨⟨ascii "From: a\r\n\r\n", [.mk [⟨ascii "From", ⟨ascii "From", ascii "a", 0, 5, 9⟩⟩] 0 11 11 false (.text [])]⟩, 11⟩
    (replace names m 0 new 9).map (fun c => c.msg.parts[0]?.map fun q => occurrences q.headers (ascii "from")) = some (some 2)
    ∧ (replace names m 0 new 9).map (fun c => build ct 20 c.msg) = some (some (some (ascii
      "From: a\r\nFrom: u\r\nSubject: t\r\nDate: now\r\nMessage-ID: <i>\r\nContent-Type: text/plain; charset=utf-8\r\n\r\nnew"))) := by
  decide +kernel

/-- **Negation of C59 (2).** With an empty `:subject` a message has no subject afterwards. -/
theorem replace_no_subject :
    (replace names sample 0 { new with subject := some [] } 9).map (fun c => c.msg.parts[0]?.map fun q => occurrences q.headers (ascii "subject"))
      = some (some 0) ∧ sample.msg.parts[0]?.map (fun p => occurrences p.headers (ascii "subject")) = some 1 := by
  decide +kernel

end Sieve.Build
