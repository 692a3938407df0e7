import Verif.BuildReplace

/-!
# Line breaks in new header fields

A script may put text from anywhere into header fields.  The text must not be able to add further header fields or to
end the header.
-/

namespace Sieve.Build
open Sieve.Mime (Header)

variable {N : Type} [DecidableEq N]

/-- Text without line breaks. -/
def OneLine (b : Bytes) : Prop := ∀ c ∈ b, c ≠ 13 ∧ c ≠ 10

instance (b : Bytes) : Decidable (OneLine b) := List.decidableBAll ..

/-- The header fields that were put into a message after it was read take one line each, in enclosed messages also. -/
inductive Clean : List (Part N) → Prop
  | intro (parts : List (Part N)) :
    (∀ p ∈ parts, ∀ h ∈ p.headers, h.value.stop = 0 → OneLine h.value.spelling ∧ OneLine h.value.text) →
    (∀ p ∈ parts, ∀ raw inner, p.content = .message raw inner → Clean inner) → Clean parts

/-- What a script does to a message. -/
inductive Change (N : Type) where
  | edit (e : Edit N)
  | replace (part : Nat) (r : Replacement) (fuel : Nat)
  | enclose (e : Enclosure)

def change (x : Names N) (c : Ctx N) : Change N → Option (Ctx N)
  | .edit e => apply x c e
  | .replace part r fuel => replace x c part r fuel
  | .enclose e => some (enclose x c e)

def changeAll (x : Names N) : Ctx N → List (Change N) → Option (Ctx N)
  | c, [] => some c
  | c, e :: es => (change x c e).bind fun c => changeAll x c es

/-- What does not come from the script is on one line: the address of the user, the date, the message id, the boundary
and the subject of the message.  So are the names of header fields, see `enclose_name_breaks` for those given to
`enclose`. -/
def Harmless : Change N → Prop
  | .edit (.add _ name _ _) => OneLine name
  | .edit (.delete ..) => True
  | .replace _ r _ => OneLine r.user ∧ OneLine r.now ∧ OneLine r.id
  | .enclose e => OneLine e.user ∧ OneLine e.now ∧ OneLine e.id ∧ OneLine e.bnd ∧ (∀ s, e.given = none → e.original = some s → OneLine s)
    ∧ ∀ f ∈ e.fields, OneLine f.1

theorem OneLine.append {a b : Bytes} (ha : OneLine a) (hb : OneLine b) : OneLine (a ++ b) := by
  intro c hc
  rcases List.mem_append.mp hc with h | h
  · exact ha c h
  · exact hb c h

theorem Clean.headers {ps : List (Part N)} (h : Clean ps) : ∀ p ∈ ps, ∀ h ∈ p.headers, h.value.stop = 0 → OneLine h.value.spelling ∧ OneLine h.value.text := by
  cases h with | intro _ h _ => exact h

theorem Clean.inner {ps : List (Part N)} (h : Clean ps) : ∀ p ∈ ps, ∀ raw inner, p.content = .message raw inner → Clean inner := by
  cases h with | intro _ _ h => exact h

theorem withHeaders_clean {ps : List (Part N)} (h : Clean ps) (qs : List (Mime.Part N Val))
    (hq : ∀ q ∈ qs, ∀ h ∈ q.headers, h.value.stop = 0 → OneLine h.value.spelling ∧ OneLine h.value.text) :
    Clean (List.zipWith (fun p q => p.withHeaders q.headers) ps qs) := by
  have key : ∀ r ∈ List.zipWith (fun (p : Part N) (q : Mime.Part N Val) => p.withHeaders q.headers) ps qs, ∃ p ∈ ps, ∃ q ∈ qs, r = p.withHeaders q.headers := by
    intro r hr
    obtain ⟨i, hi⟩ := List.mem_iff_getElem?.mp hr
    rw [List.getElem?_zipWith_eq_some] at hi
    obtain ⟨p, q, h1, h2, h3⟩ := hi
    exact ⟨p, List.mem_of_getElem? h1, q, List.mem_of_getElem? h2, h3.symm⟩
  constructor
  · intro r hr
    obtain ⟨p, _, q, h2, rfl⟩ := key r hr
    cases p
    exact hq q h2
  · intro r hr
    obtain ⟨p, h1, q, _, rfl⟩ := key r hr
    have := h.inner p h1
    cases p
    exact this

theorem mime_headers {ps : List (Part N)} (h : Clean ps) : ∀ q ∈ ps.map Part.mime, ∀ h ∈ q.headers, h.value.stop = 0 → OneLine h.value.spelling ∧ OneLine h.value.text := by
  intro q hq
  obtain ⟨p, h1, rfl⟩ := List.mem_map.mp hq
  exact h.headers p h1

theorem removeAll_headers {V : Type} {P : Header N V → Prop} : ∀ (l : List (Nat × Nat)) {ps qs : List (Mime.Part N V)}, Mime.removeAll ps l = some qs →
    (∀ q ∈ ps, ∀ h ∈ q.headers, P h) → ∀ q ∈ qs, ∀ h ∈ q.headers, P h
  | [], ps, qs, h, hp => by
    cases h
    exact hp
  | (id, pos) :: l, ps, qs, h, hp => by
    simp only [Mime.removeAll, Option.bind_eq_bind] at h
    cases h1 : Mime.removeAll ps l with
    | none => simp [h1] at h
    | some rs =>
      have ih := removeAll_headers l h1 hp
      rw [h1, Option.bind_some] at h
      unfold Mime.removeHeader at h
      cases h2 : rs[id]? with
      | none => simp [h2] at h
      | some p =>
        rw [h2] at h
        simp only at h
        split at h
        · cases h
          intro q hq
          rcases List.mem_or_eq_of_mem_set hq with hq | rfl
          · exact ih q hq
          · intro y hy
            exact ih p (List.mem_of_getElem? h2) y (List.mem_of_mem_eraseIdx hy)
        · cases h

theorem insert_clean {c c' : Ctx N} {part name spelling text last} (h : insertHeader c part name spelling text last = some c')
    (hc : Clean c.msg.parts) (hs : OneLine spelling) (ht : OneLine text) : Clean c'.msg.parts := by
  simp only [insertHeader, Option.bind_eq_bind, Mime.insertHeader] at h
  cases h1 : c.msg.mime[part]? with
  | none => simp [h1] at h
  | some p =>
    rw [h1] at h
    simp only [Option.bind_some] at h
    cases h
    refine withHeaders_clean hc _ ?_
    intro q hq
    rcases List.mem_or_eq_of_mem_set hq with hq | rfl
    · exact mime_headers hc q hq
    · have hp := mime_headers hc p (List.mem_of_getElem? h1)
      intro y hy h0
      have : y ∈ p.headers ∨ y = newField name spelling text := by
        cases last <;> simp at hy <;> tauto
      rcases this with hy | rfl
      · exact hp y hy h0
      · exact ⟨hs, ht⟩

theorem edit_clean {x : Names N} (hx : ∀ b, OneLine (x.clean b)) {c c' : Ctx N} {e : Edit N} (h : apply x c e = some c')
    (hc : Clean c.msg.parts) (he : Harmless (.edit e)) : Clean c'.msg.parts := by
  cases e with
  | add part name value last =>
    simp only [apply, addHeader] at h
    split at h
    · cases h
      exact hc
    · cases hn : x.parse name with
      | none =>
        rw [hn] at h
        cases h
        exact hc
      | some n =>
        rw [hn] at h
        simp only at h
        split at h
        · cases h
          exact hc
        · exact insert_clean h hc he (hx _)
  | delete part name index anychild mv =>
    simp only [apply, deleteHeader] at h
    split at h
    · cases h
      exact hc
    · rename_i hp
      simp only [Option.bind_eq_bind, Option.bind_eq_some_iff] at h
      obtain ⟨found, _, n, _, ps, h3, h4⟩ := h
      split at h4
      · cases h4
        refine withHeaders_clean hc _ ?_
        simp only [Mime.deleteHeader, if_neg hp, Option.bind_eq_bind, Option.bind_eq_some_iff] at h3
        obtain ⟨found', _, h5⟩ := h3
        exact removeAll_headers _ h5 (mime_headers hc)
      · cases h4

theorem removeParts_mem {ps qs : List (Part N)} {ids : List Nat} (h : removeParts ps ids = some qs) : ∀ p ∈ qs, p ∈ ps := by
  unfold removeParts at h
  generalize ids.insertionSort (fun a b => b ≤ a) = l at h
  induction l generalizing ps with
  | nil =>
    cases h
    exact fun p hp => hp
  | cons i l ih =>
    rw [List.foldlM_cons] at h
    simp only [Option.bind_eq_bind, Option.bind_eq_some_iff, removePart] at h
    obtain ⟨rs, h1, h2⟩ := h
    split at h1
    · cases h1
      exact fun p hp => List.mem_of_mem_eraseIdx (ih h2 p hp)
    · cases h1

theorem replaceFields_oneLine {x : Names N} (hx : ∀ b, OneLine (x.clean b)) {r : Replacement} (hu : OneLine r.user) (hn : OneLine r.now)
    (hi : OneLine r.id) (old : List (Header N Val)) : ∀ f ∈ replaceFields x r old, OneLine f.1 ∧ OneLine f.2 := by
  intro f hf
  simp only [replaceFields, List.mem_append, List.mem_singleton] at hf
  rcases hf with ((rfl | hf) | hf) | rfl
  · refine ⟨(by decide : OneLine (ascii "From")), ?_⟩
    simp only
    split
    · split
      · exact hu
      · exact hx _
    · exact hu
  · split at hf
    · split at hf
      · cases hf
      · rw [List.mem_singleton] at hf
        subst hf
        exact ⟨(by decide : OneLine (ascii "Subject")), hx _⟩
    · cases hf
  · split at hf
    · cases hf
    · rw [List.mem_singleton] at hf
      subst hf
      exact ⟨(by decide : OneLine (ascii "Date")), hn⟩
  · exact ⟨(by decide : OneLine (ascii "Message-ID")), hi⟩

theorem keepField_oneLine {x : Names N} {r : Replacement} {h k : Header N Val} (hk : keepField x r h = some k)
    (ho : h.value.stop = 0 → OneLine h.value.spelling ∧ OneLine h.value.text) (h0 : k.value.stop = 0) :
    OneLine k.value.spelling ∧ OneLine k.value.text := by
  unfold keepField at hk
  split at hk
  · cases hk
    split at h0
    · exact ⟨by rw [if_pos ‹_›]; exact (by decide : OneLine (ascii "Original-Subject")), by rw [if_pos ‹_›]; exact (ho h0).2⟩
    · rw [if_neg ‹_›]
      exact ho h0
  · cases hk
    split at h0
    · exact ⟨by rw [if_pos ‹_›]; exact (by decide : OneLine (ascii "Original-From")), by rw [if_pos ‹_›]; exact (ho h0).2⟩
    · rw [if_neg ‹_›]
      exact ho h0
  · cases hk
    exact ho h0
  · cases hk
    exact ho h0
  · cases hk

theorem replace_clean {x : Names N} (hx : ∀ b, OneLine (x.clean b)) {c c' : Ctx N} {part r fuel} (h : replace x c part r fuel = some c')
    (hc : Clean c.msg.parts) (hr : Harmless (N := N) (.replace part r fuel)) : Clean c'.msg.parts := by
  obtain ⟨hu, hn, hi⟩ := hr
  simp only [replace, Option.bind_eq_bind, Option.bind_eq_some_iff] at h
  obtain ⟨nested, _, parts, h2, p, h3, h4⟩ := h
  have hmem := removeParts_mem h2
  have hp := hmem p (List.mem_of_getElem? h3)
  cases h4
  constructor
  · intro q hq
    rcases List.mem_or_eq_of_mem_set hq with hq | rfl
    · exact hc.headers q (hmem q hq)
    · intro y hy h0
      simp only [Part.headers, List.mem_append, List.mem_map] at hy
      rcases hy with hy | ⟨f, hf, rfl⟩
      · split at hy
        · obtain ⟨z, hz, hk⟩ := List.mem_filterMap.mp hy
          exact keepField_oneLine hk (hc.headers p hp z hz) h0
        · cases hy
      · show OneLine f.1 ∧ OneLine f.2
        rcases hf with hf | hf
        · split at hf
          · exact replaceFields_oneLine hx hu hn hi _ f hf
          · cases hf
        · split at hf
          · cases hf
          · rw [List.mem_singleton] at hf
            subst hf
            exact ⟨(by decide : OneLine (ascii "Content-Type")), (by decide : OneLine (ascii "text/plain; charset=utf-8"))⟩
  · intro q hq
    rcases List.mem_or_eq_of_mem_set hq with hq | rfl
    · exact hc.inner q (hmem q hq)
    · intro raw inner e
      cases e

theorem enclose_clean {x : Names N} (hx : ∀ b, OneLine (x.clean b)) {c : Ctx N} {e : Enclosure}
    (hc : Clean c.msg.parts) (he : Harmless (N := N) (.enclose e)) : Clean (enclose x c e).msg.parts := by
  obtain ⟨hu, hn, hi, hb, hs, hf⟩ := he
  constructor
  · intro q hq
    simp only [enclose, List.mem_cons, List.not_mem_nil, or_false] at hq
    rcases hq with rfl | rfl | rfl
    · intro y hy _
      simp only [Part.headers, List.mem_append, List.mem_map, List.mem_cons, List.not_mem_nil, or_false] at hy
      rcases hy with (((hy | ⟨f, hf', rfl⟩) | hy) | hy) | hy
      · rcases hy with rfl | rfl
        · exact ⟨(by decide : OneLine (ascii "Content-Type")),
            OneLine.append (OneLine.append (by decide : OneLine (ascii "multipart/mixed; boundary=\"")) hb) (by decide : OneLine (ascii "\""))⟩
        · refine ⟨(by decide : OneLine (ascii "Subject")), ?_⟩
          show OneLine (subjectOf x e)
          unfold subjectOf
          cases hg : e.given with
          | some s => exact hx s
          | none =>
            cases ho : e.original with
            | none => exact fun c hc => absurd hc (by simp)
            | some s => exact hs s hg ho
      · exact ⟨hf f (List.mem_of_mem_filter hf'), hx _⟩
      · split at hy
        · cases hy
        · rw [List.mem_singleton] at hy
          subst hy
          exact ⟨(by decide : OneLine (ascii "From")), hu⟩
      · split at hy
        · cases hy
        · rw [List.mem_singleton] at hy
          subst hy
          exact ⟨(by decide : OneLine (ascii "Date")), hn⟩
      · split at hy
        · cases hy
        · rw [List.mem_singleton] at hy
          subst hy
          exact ⟨(by decide : OneLine (ascii "Message-ID")), hi⟩
    · intro y hy _
      simp only [Part.headers, List.mem_singleton] at hy
      subst hy
      exact ⟨(by decide : OneLine (ascii "Content-Type")), (by decide : OneLine (ascii "text/plain; charset=utf-8"))⟩
    · intro y hy _
      simp only [Part.headers, List.mem_singleton] at hy
      subst hy
      exact ⟨(by decide : OneLine (ascii "Content-Type")), (by decide : OneLine (ascii "message/rfc822"))⟩
  · intro q hq raw inner hm
    simp only [enclose, List.mem_cons, List.not_mem_nil, or_false] at hq
    rcases hq with rfl | rfl | rfl
    · cases hm
    · cases hm
    · cases hm
      exact hc

/-- **C63.** However often a script adds and deletes header fields, replaces parts and encloses the message, and whatever
text it gives: each header field it has put into the message is written as one line, a name, a colon and a text, ended by
the line break and containing no other.  So no text given by a script can add a header field or end the header.

What is missing: the names of header fields given to `enclose`, see `enclose_name_breaks`. -/
theorem no_injection_partial (x : Names N) (hx : ∀ b, OneLine (x.clean b)) : ∀ (es : List (Change N)) {c c' : Ctx N},
    changeAll x c es = some c' → Clean c.msg.parts → (∀ e ∈ es, Harmless e) →
    Clean c'.msg.parts ∧ ∀ p ∈ c'.msg.parts, ∀ h ∈ p.headers, h.value.stop = 0 →
      ∃ name text, line c'.msg.raw h = some (name ++ [58, 32] ++ text ++ [13, 10]) ∧ OneLine name ∧ OneLine text := by
  suffices main : ∀ (es : List (Change N)) {c c' : Ctx N}, changeAll x c es = some c' → Clean c.msg.parts → (∀ e ∈ es, Harmless e) → Clean c'.msg.parts by
    intro es c c' h hc he
    have hd := main es h hc he
    refine ⟨hd, fun p hp h hh h0 => ?_⟩
    obtain ⟨h1, h2⟩ := hd.headers p hp h hh h0
    exact ⟨h.value.spelling, h.value.text, by rw [line, if_neg (by simpa using h0)]; rfl, h1, h2⟩
  intro es
  induction es with
  | nil =>
    intro c c' h hc _
    cases h
    exact hc
  | cons e es ih =>
    intro c c' h hc he
    simp only [changeAll, Option.bind_eq_some_iff] at h
    obtain ⟨c1, h1, h2⟩ := h
    refine ih h2 ?_ fun e' h' => he e' (List.mem_cons_of_mem _ h')
    have h0 := he e (List.mem_cons_self ..)
    cases e with
    | edit e => exact edit_clean hx h1 hc h0
    | replace part r fuel => exact replace_clean hx h1 hc h0
    | enclose e =>
      cases h1
      exact enclose_clean hx hc h0

/-! ## Concrete cases -/

theorem names_clean (b : Bytes) : OneLine (names.clean b) := by
  intro c hc
  simpa [names] using (List.mem_filter.mp hc).2

theorem sample_clean : Clean sample.msg.parts := by
  constructor
  · decide
  · intro p hp raw inner e
    simp only [sample, List.mem_cons, List.not_mem_nil, or_false] at hp
    rcases hp with rfl | rfl | rfl | rfl <;> cases e

/-- Text with line breaks given to all actions. -/
def breaking : List (Change Bytes) :=
  [.edit (.add 0 (ascii "X") (ascii "y\r\nBcc: z\r\n\r\n") true), .replace 3 { new with «from» := some (ascii "a\r\nB: c") } 9,
    .replace 0 { new with subject := some (ascii "s\nD: d") } 9, .enclose { envelope with given := some (ascii "t\r\n\r\nu") },
    .edit (.add 1 (ascii "Z") (ascii "1\n2") false)]

example : (∀ e ∈ breaking, Harmless e) ∧ ∃ c, changeAll names sample breaking = some c ∧ Clean c.msg.parts := by
  have h1 : ∀ e ∈ breaking, Harmless e := by
    intro e he
    simp only [breaking, List.mem_cons, List.not_mem_nil, or_false] at he
    rcases he with rfl | rfl | rfl | rfl | rfl
    · simp only [Harmless]; decide
    · simp only [Harmless]; decide
    · simp only [Harmless]; decide
    · exact ⟨by decide, by decide, by decide, by decide, (fun s h => by cases h), by decide⟩
    · simp only [Harmless]; decide
  refine ⟨h1, ?_⟩
  have h2 : (changeAll names sample breaking).isSome = true := by decide +kernel
  obtain ⟨c, hc⟩ := Option.isSome_iff_exists.mp h2
  exact ⟨c, hc, (no_injection_partial names names_clean breaking hc sample_clean h1).1⟩

/-- Disagrees with C63: the name of a header field given to `enclose` is not cleaned.  If `HeaderName::parse` accepts such a name, a second header
field is written with `X⏎Bcc`. -/
theorem enclose_name_breaks :
    build ct 30 (enclose names sample { envelope with fields := [(ascii "X\r\nBcc", ascii "z")] }).msg
      = some (some (ascii "Content-Type: multipart/mixed; boundary=\"b\"\r\nSubject: s\r\nX\r\nBcc: z\r\nFrom: u\r\nDate: now\r\nMessage-ID: <i>\r\n\r\n--b\r\nContent-Type: text/plain; charset=utf-8\r\n\r\ntext\r\n--b\r\nContent-Type: message/rfc822\r\n\r\n"
    ++ sample.msg.raw ++ ascii "\r\n--b--\r\n")) := by
  decide +kernel

end Sieve.Build
