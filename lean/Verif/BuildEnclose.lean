import Verif.BuildActions

/-!
# C57, C58: enclose and replace
-/

namespace Sieve.Build
open Sieve.Mime (Header Represents)

variable {N : Type} [DecidableEq N]

/-! ## enclose -/

/-- Header fields as they are to be written. -/
def shown (l : List (Bytes × Bytes)) : Bytes := (l.map fun f => f.1 ++ ascii ": " ++ f.2 ++ crlf).flatten

/-- The header fields of a message made by `enclose`: the type, the subject, those given in `:headers` that have a name
and a value and are not protected, and `From`, `Date` and `Message-ID` if they are not among them. -/
def enclosureFields (x : Names N) (e : Enclosure) : List (Bytes × Bytes) :=
  let given := e.fields.filter fun f => f.2 ≠ [] ∧ ∃ n ∈ x.parse f.1, x.prot n = false
  let missing (n : N) : Bool := given.all fun f => x.parse f.1 ≠ some n
  [(ascii "Content-Type", ascii "multipart/mixed; boundary=\"" ++ e.bnd ++ ascii "\""), (ascii "Subject", subjectOf x e)]
    ++ given.map (fun f => (f.1, x.clean f.2))
    ++ (if missing x.from then [(ascii "From", e.user)] else [])
    ++ (if missing x.date then [(ascii "Date", e.now)] else [])
    ++ (if missing x.messageId then [(ascii "Message-ID", e.id)] else [])

def newFields (x : Names N) (l : List (Bytes × Bytes)) : List (Header N Val) := l.map fun f => newField (x.other f.1) f.1 f.2

omit [DecidableEq N] in
theorem lines_new (raw : Bytes) (x : Names N) : ∀ l, ∃ fs, lines raw (newFields x l) = some fs ∧ fs.flatten = shown l
  | [] => ⟨[], rfl, rfl⟩
  | f :: l => by
    obtain ⟨fs, h1, h2⟩ := lines_new raw x l
    refine ⟨(f.1 ++ ascii ": " ++ f.2 ++ crlf) :: fs, ?_, ?_⟩
    · have hl : line raw (newField (x.other f.1) f.1 f.2) = some (f.1 ++ ascii ": " ++ f.2 ++ crlf) := rfl
      simp only [newFields, List.map_cons] at h1 ⊢
      simp only [lines, hl, h1]
      rfl
    · simp [shown] at h2 ⊢
      rw [h2]

theorem split_literal (r : Bytes) : splitOnce (ascii "boundary=\"") (ascii "multipart/mixed; boundary=\"" ++ r) = some (ascii "multipart/mixed; ", r) := by
  rfl

theorem split_quote (b : Bytes) (h : (34 : UInt8) ∉ b) : splitOnce (ascii "\"") (b ++ ascii "\"") = some (b, []) := by
  rw [show ascii "\"" = [34] from rfl]
  induction b with
  | nil => rfl
  | cons c b ih =>
    simp only [List.mem_cons, not_or] at h
    rw [List.cons_append, splitOnce, if_neg, ih h.2]
    · rfl
    · intro hp
      simp only [List.isPrefixOf, Bool.and_true, beq_iff_eq] at hp
      exact h.1 hp

theorem boundary_found (b : Bytes) (h : (34 : UInt8) ∉ b) : boundary (some (ascii "multipart/mixed; boundary=\"" ++ b ++ ascii "\"")) = b := by
  unfold boundary
  dsimp only
  rw [List.append_assoc, split_literal]
  dsimp only
  rw [split_quote b h]

omit [DecidableEq N] in
theorem accepted_some (x : Names N) (f : Bytes × Bytes) :
    (accepted x f).isSome = decide (f.2 ≠ [] ∧ ∃ n ∈ x.parse f.1, x.prot n = false) := by
  unfold accepted
  by_cases h1 : f.2 = []
  · simp [h1]
  · rw [if_neg h1]
    cases h2 : x.parse f.1 with
    | none => simp
    | some n =>
      simp only
      by_cases h3 : x.prot n = true
      · simp [h3]
      · simp [h1, h3]

omit [DecidableEq N] in
theorem accepted_parse (x : Names N) (f : Bytes × Bytes) (h : (accepted x f).isSome = true) : accepted x f = x.parse f.1 := by
  unfold accepted at h ⊢
  by_cases h1 : f.2 = []
  · rw [if_pos h1] at h
    cases h
  · rw [if_neg h1] at h ⊢
    cases h2 : x.parse f.1 with
    | none => rfl
    | some n =>
      rw [h2] at h
      simp only at h ⊢
      by_cases h3 : x.prot n = true
      · rw [if_pos h3] at h
        cases h
      · rw [if_neg h3]

/-- The message made by `enclose`. -/
theorem enclose_parts (x : Names N) (c : Ctx N) (e : Enclosure) :
    (enclose x c e).msg = ⟨[], [.mk (newFields x (enclosureFields x e)) 0 0 0 false (.multipart [1, 2]),
      .mk (newFields x [(ascii "Content-Type", ascii "text/plain; charset=utf-8")]) 0 0 0 true (.text e.body),
      .mk (newFields x [(ascii "Content-Type", ascii "message/rfc822")]) 0 0 0 true (.message c.msg.raw c.msg.parts)]⟩ := by
  have hfil : (e.fields.filter fun f => (accepted x f).isSome) = e.fields.filter fun f => f.2 ≠ [] ∧ ∃ n ∈ x.parse f.1, x.prot n = false := by
    congr 1
    funext f
    exact accepted_some x f
  have hany : ∀ n : N, ((e.fields.filter fun f => (accepted x f).isSome).any fun f => accepted x f = some n)
      = !((e.fields.filter fun f => (accepted x f).isSome).all fun f => x.parse f.1 ≠ some n) := by
    intro n
    rw [List.not_all_eq_any_not]
    have : ∀ l : List (Bytes × Bytes), (∀ f ∈ l, (accepted x f).isSome = true) →
        (l.any fun f => accepted x f = some n) = l.any fun f => !(decide (x.parse f.1 ≠ some n)) := by
      intro l hl
      induction l with
      | nil => rfl
      | cons f l ih =>
        rw [List.any_cons, List.any_cons, ih fun g hg => hl g (List.mem_cons_of_mem _ hg), accepted_parse x f (hl f (List.mem_cons_self ..))]
        simp
    refine this _ ?_
    intro f hf
    exact (List.mem_filter.mp hf).2
  have flip : ∀ (b : Bool) (l : List (Header N Val)), (if (!b) = true then [] else l) = if b = true then l else [] := by
    intro b l
    cases b <;> rfl
  unfold enclose
  simp only [hany, flip]
  rw [hfil]
  have hif : ∀ (b : Bool) (f : Bytes × Bytes), newFields x (if b = true then [f] else []) = if b = true then [newField (x.other f.1) f.1 f.2] else [] := by
    intro b f
    cases b <;> rfl
  have happ : ∀ l l', newFields x (l ++ l') = newFields x l ++ newFields x l' := by
    intro l l'
    simp [newFields]
  simp only [enclosureFields, happ, hif]
  simp only [newFields, List.map_map, List.map_cons, List.map_nil, Function.comp_def]

/-- **C57.** The message made by `enclose` has the given header fields, and two parts, separated by the boundary announced
in its header: the text, and the message as it would have been written.

What is missing: a field called `Content-Type` in `:headers`, see `enclose_wrong_boundary`; and the subject of the
message is taken as it is, see `enclose_subject_injects`. -/
theorem enclose_partial (ct : N) (x : Names N) (c : Ctx N) (e : Enclosure) {y} (hy : Whole ct c.msg y)
    (hct : x.other (ascii "Content-Type") = ct)
    (hne : ∀ n ∈ [ascii "Subject", ascii "From", ascii "Date", ascii "Message-ID"], x.other n ≠ ct)
    (hf : ∀ f ∈ e.fields, x.other f.1 ≠ ct) (hb : e.bnd ≠ []) (hq : (34 : UInt8) ∉ e.bnd) :
    Whole ct (enclose x c e).msg
      (shown (enclosureFields x e) ++ (crlf ++ ascii "--" ++ e.bnd ++ crlf)
        ++ ascii "Content-Type: text/plain; charset=utf-8\r\n" ++ crlf ++ e.body
        ++ (crlf ++ ascii "--" ++ e.bnd ++ crlf)
        ++ ascii "Content-Type: message/rfc822\r\n" ++ crlf ++ y
        ++ (crlf ++ ascii "--" ++ e.bnd ++ ascii "--" ++ crlf)) := by
  rw [enclose_parts]
  obtain ⟨f0, l0, t0⟩ := lines_new [] x (enclosureFields x e)
  obtain ⟨f1, l1, t1⟩ := lines_new [] x [(ascii "Content-Type", ascii "text/plain; charset=utf-8")]
  obtain ⟨f2, l2, t2⟩ := lines_new [] x [(ascii "Content-Type", ascii "message/rfc822")]
  have hbnd : boundary (contentType ct (newFields x (enclosureFields x e))) = e.bnd := by
    have : contentType ct (newFields x (enclosureFields x e)) = some (ascii "multipart/mixed; boundary=\"" ++ e.bnd ++ ascii "\"") := by
      have hfil : ∀ l : List (Bytes × Bytes), (∀ f ∈ l, x.other f.1 ≠ ct) →
          ((newFields x l).filter fun h => h.value.stop = 0 ∧ h.name = ct) = [] := by
        intro l hl
        rw [List.filter_eq_nil_iff]
        intro h hh
        obtain ⟨f, hf, rfl⟩ := List.mem_map.mp hh
        simpa [newField] using hl f hf
      have hall : enclosureFields x e = (ascii "Content-Type", ascii "multipart/mixed; boundary=\"" ++ e.bnd ++ ascii "\"") :: (enclosureFields x e).tail := rfl
      have htail : ∀ f ∈ (enclosureFields x e).tail, x.other f.1 ≠ ct := by
        intro f hf'
        simp only [enclosureFields, List.cons_append, List.tail_cons, List.nil_append, List.mem_cons, List.mem_append] at hf'
        rcases hf' with rfl | ((hf' | hf') | hf') | hf'
        · exact hne _ (by simp)
        · obtain ⟨f', h1, rfl⟩ := List.mem_map.mp hf'
          exact hf f' (List.mem_filter.mp h1).1
        · split at hf'
          · rw [List.mem_singleton.mp hf']
            exact hne _ (by simp)
          · cases hf'
        · split at hf'
          · rw [List.mem_singleton.mp hf']
            exact hne _ (by simp)
          · cases hf'
        · split at hf'
          · rw [List.mem_singleton.mp hf']
            exact hne _ (by simp)
          · cases hf'
      unfold contentType
      rw [hall]
      have hcons : ∀ f l, newFields x (f :: l) = newField (x.other f.1) f.1 f.2 :: newFields x l := fun _ _ => rfl
      rw [hcons, List.filter_cons, hfil _ htail, if_pos (by simp [newField, hct])]
      rfl
    rw [this, boundary_found _ hq]
  have := Whole.enclosed (ct := ct) (m := ⟨[], [.mk (newFields x (enclosureFields x e)) 0 0 0 false (.multipart [1, 2]),
      .mk (newFields x [(ascii "Content-Type", ascii "text/plain; charset=utf-8")]) 0 0 0 true (.text e.body),
      .mk (newFields x [(ascii "Content-Type", ascii "message/rfc822")]) 0 0 0 true (.message c.msg.raw c.msg.parts)]⟩)
    rfl rfl rfl rfl rfl rfl rfl rfl rfl rfl rfl rfl rfl rfl l0 l1 l2 hbnd hb hy
  rw [t0, t1, t2] at this
  exact this

end Sieve.Build
