import Verif.ConvertModel
import Verif.BuildReplace

/-!
# Converting parts: which parts are converted (C93), how the message is written (C94), and its size (C95)
-/

namespace Sieve.Convert
open Sieve.Mime (Header)
open Sieve.Build (Bytes Val Part Content Msg Names ascii newField crlf lines line Tree Shows ShowsAll Writes writes_whole shows_pos)

variable {N : Type}

/-! ## Specification -/

/-- The same letter, in upper or lower case. -/
def Letter (c d : UInt8) : Prop :=
  c = d ∨ (65 ≤ c.toNat ∧ c.toNat ≤ 90 ∧ d.toNat = c.toNat + 32) ∨ (65 ≤ d.toNat ∧ d.toNat ≤ 90 ∧ c.toNat = d.toNat + 32)

/-- The same text, whatever the case of its letters. -/
def Alike (a b : Bytes) : Prop := List.Forall₂ Letter a b

/-- What is to be done for two media types. -/
inductive Wanted (source target : Bytes) : Conv → Prop
  | toText : Alike source (ascii "text/html") → Alike target (ascii "text/plain") → Wanted source target .htmlToText
  | toHtml {sub} : source = ascii "text/" ++ sub → ¬ Alike source (ascii "text/html") → Alike target (ascii "text/html") →
      Wanted source target .textToHtml
  | plainToHtml : Alike source (ascii "text") → Alike target (ascii "text/html") → Wanted source target .plainToHtml

/-- The text of a part after its conversion, if it is one of those to be converted. -/
inductive Gives (x : Lib N) : Conv → Kind × Part N → Bytes → Prop
  | toText {p t} : p.content = .text t →
      Gives x .htmlToText (.html, p) (ascii "Content-Type: text/plain; charset=utf8\r\n\r\n" ++ x.toText t)
  | toHtml {p t} : p.content = .text t →
      Gives x .textToHtml (.text, p) (ascii "Content-Type: text/html; charset=utf8\r\n\r\n" ++ x.toHtml t)
  | plainToHtml {p t sub} : p.content = .text t → x.subtype p.headers = some sub → Alike sub (ascii "plain") →
      Gives x .plainToHtml (.text, p) (ascii "Content-Type: text/html; charset=utf8\r\n\r\n" ++ x.toHtml t)

/-- There is something to convert. -/
def Something (x : Lib N) (source target : Bytes) (parts : List (Kind × Part N)) : Prop :=
  ∃ v, Wanted source target v ∧ ∃ kp ∈ parts, ∃ s, Gives x v kp s

/-- The text of a tree with other texts for some of its parts. -/
def textWith (g : Nat → Option Bytes) : Tree → Bytes
  | .node i fields sep kids rest =>
    match g i with
    | some s => s
    | none => fields.flatten ++ sep ++ textsWith kids ++ rest
where
  textsWith : List (Bytes × Tree) → Bytes
    | [] => []
    | (b, t) :: ks => b ++ textWith g t ++ textsWith ks

/-- The new texts of the parts that are converted. -/
def NewTexts (x : Lib N) (v : Conv) (parts : List (Kind × Part N)) (g : Nat → Option Bytes) : Prop :=
  ∀ i s, g i = some s ↔ ∃ kp, parts[i]? = some kp ∧ Gives x v kp s

/-! ## Lemmas -/

theorem low_iff (c d : UInt8) : low c = low d ↔ Letter c d := by
  have key : ∀ c : UInt8, (low c).toNat = if 65 ≤ c.toNat ∧ c.toNat ≤ 90 then c.toNat + 32 else c.toNat := by
    intro c
    unfold low
    by_cases h : 65 ≤ c.toNat ∧ c.toNat ≤ 90
    · have h' : (decide (65 ≤ c) && decide (c ≤ 90)) = true := by
        rw [Bool.and_eq_true, decide_eq_true_eq, decide_eq_true_eq, UInt8.le_iff_toNat_le, UInt8.le_iff_toNat_le]
        exact h
      rw [if_pos h', if_pos h, UInt8.toNat_add]
      have : (32 : UInt8).toNat = 32 := rfl
      omega
    · have h' : ¬ (decide (65 ≤ c) && decide (c ≤ 90)) = true := by
        rw [Bool.and_eq_true, decide_eq_true_eq, decide_eq_true_eq, UInt8.le_iff_toNat_le, UInt8.le_iff_toNat_le]
        exact h
      rw [if_neg h', if_neg h]
  rw [← UInt8.toNat_inj, key, key]
  unfold Letter
  rw [← UInt8.toNat_inj]
  split <;> split <;> omega

theorem same_iff : ∀ (a b : Bytes), same a b = true ↔ Alike a b
  | [], [] => by simp [same, Alike]
  | [], _ :: _ => by simp [same, Alike]
  | _ :: _, [] => by simp [same, Alike]
  | c :: a, d :: b => by
    have ih := same_iff a b
    simp only [same, Alike, beq_iff_eq, List.map_cons, List.cons.injEq, List.forall₂_cons, low_iff] at ih ⊢
    rw [ih]

theorem alike_symm {a b : Bytes} (h : Alike a b) : Alike b a := by
  rw [← same_iff] at h ⊢
  simp only [same, beq_iff_eq] at h ⊢
  exact h.symm

theorem alike_trans {a b c : Bytes} (h : Alike a b) (h' : Alike b c) : Alike a c := by
  rw [← same_iff] at h h' ⊢
  simp only [same, beq_iff_eq] at h h' ⊢
  rw [h, h']

theorem alike_refl (a : Bytes) : Alike a a := by
  rw [← same_iff]; simp [same]

theorem alike_length {a b : Bytes} (h : Alike a b) : a.length = b.length := List.Forall₂.length_eq h

instance (a b : Bytes) : Decidable (Alike a b) := decidable_of_iff _ (same_iff a b)

theorem chosen_iff (source target : Bytes) (v : Conv) : chosen source target = some v ↔ Wanted source target v := by
  have n1 : ¬ Alike (ascii "text") (ascii "text/html") := by decide +kernel
  have n2 : ¬ Alike (ascii "text/html") (ascii "text/plain") := by decide +kernel
  have n3 : ¬ Alike (ascii "text/plain") (ascii "text/html") := by decide +kernel
  have pre : (ascii "text/").isPrefixOf source = true ↔ ∃ sub, source = ascii "text/" ++ sub := by
    rw [List.isPrefixOf_iff_prefix]
    exact ⟨fun ⟨t, h⟩ => ⟨t, h.symm⟩, fun ⟨t, h⟩ => ⟨t, h.symm⟩⟩
  have nt : ∀ sub, ¬ Alike (ascii "text/" ++ sub) (ascii "text") := by
    intro sub h
    have := alike_length h
    rw [List.length_append, show (ascii "text/").length = 5 from rfl, show (ascii "text").length = 4 from rfl] at this
    omega
  unfold chosen
  by_cases h0 : same source target = true
  · rw [if_pos h0]
    have h0 := (same_iff _ _).1 h0
    refine ⟨fun h => (by cases h), fun h => ?_⟩
    cases h with
    | toText a b => exact absurd (alike_trans (alike_trans (alike_symm a) h0) b) n2
    | toHtml a b c => exact absurd (alike_trans h0 c) b
    | plainToHtml a b => exact absurd (alike_trans (alike_trans (alike_symm a) h0) b) n1
  · rw [if_neg h0]
    have h0 : ¬ Alike source target := fun h => h0 ((same_iff _ _).2 h)
    by_cases h1 : ((same source (ascii "text") || (ascii "text/").isPrefixOf source) && same target (ascii "text/html")) = true
    · rw [if_pos h1]
      rw [Bool.and_eq_true, Bool.or_eq_true, same_iff, pre, same_iff] at h1
      obtain ⟨h1, h2⟩ := h1
      by_cases h3 : same source (ascii "text") = true
      · rw [if_pos h3]
        have h3 := (same_iff _ _).1 h3
        constructor
        · intro h; injection h with h; subst h; exact .plainToHtml h3 h2
        · intro h
          cases h with
          | toText a b => exact absurd (alike_trans (alike_symm b) h2) n3
          | toHtml a b c => exact absurd (a ▸ h3) (nt _)
          | plainToHtml a b => rfl
      · rw [if_neg h3]
        have h3 : ¬ Alike source (ascii "text") := fun h => h3 ((same_iff _ _).2 h)
        obtain ⟨sub, hs⟩ := h1.resolve_left h3
        constructor
        · intro h; injection h with h; subst h
          exact .toHtml hs (fun h => h0 (alike_trans h (alike_symm h2))) h2
        · intro h
          cases h with
          | toText a b => exact absurd (alike_trans (alike_symm b) h2) n3
          | toHtml a b c => rfl
          | plainToHtml a b => exact absurd a h3
    · rw [if_neg h1]
      rw [Bool.and_eq_true, Bool.or_eq_true, same_iff, pre, same_iff] at h1
      by_cases h2 : (same source (ascii "text/html") && same target (ascii "text/plain")) = true
      · rw [if_pos h2]
        rw [Bool.and_eq_true, same_iff, same_iff] at h2
        constructor
        · intro h; injection h with h; subst h; exact .toText h2.1 h2.2
        · intro h
          cases h with
          | toText a b => rfl
          | toHtml a b c => exact absurd h2.1 b
          | plainToHtml a b => exact absurd ⟨.inl a, b⟩ h1
      · rw [if_neg h2]
        rw [Bool.and_eq_true, same_iff, same_iff] at h2
        refine ⟨fun h => (by cases h), fun h => ?_⟩
        cases h with
        | toText a b => exact absurd ⟨a, b⟩ h2
        | toHtml a b c => exact absurd ⟨.inr ⟨_, a⟩, c⟩ h1
        | plainToHtml a b => exact absurd ⟨.inl a, b⟩ h1

theorem chosen_none (source target : Bytes) (h : chosen source target = none) (v : Conv) : ¬ Wanted source target v := by
  intro hw
  rw [(chosen_iff _ _ _).2 hw] at h
  cases h

/-- The whole text of a converted part. -/
def newText (x : Lib N) (v : Conv) (kp : Kind × Part N) : Option Bytes :=
  (converted x v kp.1 kp.2).map fun r => ascii "Content-Type" ++ ascii ": " ++ r.2.2 ++ crlf ++ crlf ++ r.2.1

theorem newText_iff (x : Lib N) (v : Conv) (kp : Kind × Part N) (s : Bytes) : newText x v kp = some s ↔ Gives x v kp s := by
  have e1 : ∀ b, ascii "Content-Type" ++ ascii ": " ++ ascii "text/plain; charset=utf8" ++ crlf ++ crlf ++ b
      = ascii "Content-Type: text/plain; charset=utf8\r\n\r\n" ++ b := by
    intro b
    rw [show ascii "Content-Type: text/plain; charset=utf8\r\n\r\n"
      = ascii "Content-Type" ++ ascii ": " ++ ascii "text/plain; charset=utf8" ++ crlf ++ crlf by decide +kernel]
  have e2 : ∀ b, ascii "Content-Type" ++ ascii ": " ++ ascii "text/html; charset=utf8" ++ crlf ++ crlf ++ b
      = ascii "Content-Type: text/html; charset=utf8\r\n\r\n" ++ b := by
    intro b
    rw [show ascii "Content-Type: text/html; charset=utf8\r\n\r\n"
      = ascii "Content-Type" ++ ascii ": " ++ ascii "text/html; charset=utf8" ++ crlf ++ crlf by decide +kernel]
  obtain ⟨k, p⟩ := kp
  constructor
  · intro h
    unfold newText converted at h
    simp only at h
    split at h
    · rename_i t hc
      simp only [Option.map_some, Option.some.injEq, e1] at h
      exact h ▸ .toText hc
    · rename_i t hc
      simp only [Option.map_some, Option.some.injEq, e2] at h
      exact h ▸ .toHtml hc
    · rename_i t hc
      split at h
      · rename_i sub hs
        split at h
        · rename_i ha
          simp only [Option.map_some, Option.some.injEq, e2] at h
          exact h ▸ .plainToHtml hc hs ((same_iff _ _).1 ha)
        · cases h
      · cases h
    · cases h
  · intro h
    unfold newText converted
    cases h with
    | toText hc => simp only [hc, Option.map_some, e1]
    | toHtml hc => simp only [hc, Option.map_some, e2]
    | plainToHtml hc hs ha => simp only [hc, hs, (same_iff _ _).2 ha, if_true, Option.map_some, e2]

theorem gives_unique {x : Lib N} {v kp s s'} (h : Gives x v kp s) (h' : Gives x v kp s') : s = s' := by
  rw [← newText_iff] at h h'
  rw [h] at h'
  exact Option.some.inj h'

/-- There are new texts. -/
theorem newTexts_exist (x : Lib N) (v : Conv) (parts : List (Kind × Part N)) :
    NewTexts x v parts fun i => (parts[i]?).bind (newText x v) := by
  intro i s
  rw [Option.bind_eq_some_iff]
  simp only [newText_iff]

theorem newTexts_eq {x : Lib N} {v : Conv} {parts : List (Kind × Part N)} {g} (h : NewTexts x v parts g) :
    g = fun i => (parts[i]?).bind (newText x v) := by
  funext i
  apply Option.ext
  intro s
  rw [h i s, ← newTexts_exist x v parts i s]

/-- One part before and after. -/
inductive After (n : Names N) (x : Lib N) (v : Conv) : Kind × Part N → Kind × Part N → Prop
  | same {kp} : newText x v kp = none → After n x v kp kp
  | new {k p k' body ct} : converted x v k p = some (k', body, ct) →
      After n x v (k, p) (k', .mk [newField (n.other (ascii "Content-Type")) (ascii "Content-Type") ct] p.header 0 p.stop true (.text body))

theorem newText_none {x : Lib N} {v : Conv} {k p} : newText x v (k, p) = none ↔ converted x v k p = none := by
  unfold newText
  exact Option.map_eq_none_iff

theorem convertParts_after (n : Names N) (x : Lib N) (v : Conv) : ∀ (ps : List (Kind × Part N)) (size : Nat) (r),
    convertParts n x v ps size = some r →
      List.Forall₂ (After n x v) ps r.1 ∧ (r.2.2 = true ↔ ∃ kp ∈ ps, (newText x v kp).isSome) ∧
      (r.2.2 = false → r.2.1 = size)
  | [], size, r, h => by
    simp only [convertParts, Option.some.injEq] at h
    subst h
    simp
  | (k, p) :: ps, size, r, h => by
    rw [convertParts] at h
    cases hc : converted x v k p with
    | none =>
      simp only [hc, Option.map_eq_some_iff] at h
      obtain ⟨r', h', rfl⟩ := h
      obtain ⟨i1, i2, i3⟩ := convertParts_after n x v ps size r' h'
      refine ⟨.cons (.same (newText_none.2 hc)) i1, ?_, i3⟩
      simp only [i2, List.mem_cons, exists_eq_or_imp, newText_none.2 hc]
      simp
    | some r0 =>
      obtain ⟨k', body, ct⟩ := r0
      simp only [hc] at h
      cases ho : oldLen p with
      | none => simp [ho] at h
      | some old =>
        simp only [ho] at h
        split at h
        · cases h
        · rw [Option.map_eq_some_iff] at h
          obtain ⟨r', h', rfl⟩ := h
          obtain ⟨i1, i2, i3⟩ := convertParts_after n x v ps _ r' h'
          refine ⟨.cons (.new hc) i1, ?_, by simp⟩
          simp only [true_iff]
          refine ⟨(k, p), List.mem_cons_self .., ?_⟩
          simp [newText, hc]

theorem after_done {n : Names N} {x : Lib N} {v : Conv} {kp kp' : Kind × Part N} (h : After n x v kp kp') : newText x v kp' = none := by
  cases h with
  | same h => exact h
  | @new k p k' body ct h =>
    rw [newText_none]
    unfold converted at h ⊢
    split at h
    · injection h with h; injection h with h1; subst h1; rfl
    · injection h with h; injection h with h1; subst h1; rfl
    · split at h
      · split at h
        · injection h with h; injection h with h1; subst h1; rfl
        · cases h
      · cases h
    · cases h

theorem convertParts_none (n : Names N) (x : Lib N) (v : Conv) : ∀ (ps : List (Kind × Part N)) (size : Nat),
    (∀ kp ∈ ps, newText x v kp = none) → convertParts n x v ps size = some (ps, size, false)
  | [], _, _ => rfl
  | (k, p) :: ps, size, h => by
    have h1 := newText_none.1 (h _ (List.mem_cons_self ..))
    rw [convertParts]
    simp only [h1, convertParts_none n x v ps size fun kp hk => h kp (List.mem_cons_of_mem _ hk), Option.map_some]

/-! ## C93 -/

theorem something_iff {x : Lib N} {source target : Bytes} {v : Conv} (hv : Wanted source target v) (parts : List (Kind × Part N)) :
    Something x source target parts ↔ ∃ kp ∈ parts, (newText x v kp).isSome := by
  constructor
  · rintro ⟨v', hv', kp, hk, s, hs⟩
    have e := (chosen_iff _ _ _).2 hv'
    rw [(chosen_iff _ _ _).2 hv] at e
    injection e with e
    subst e
    exact ⟨kp, hk, by rw [(newText_iff ..).2 hs]; rfl⟩
  · rintro ⟨kp, hk, h⟩
    obtain ⟨s, hs⟩ := Option.isSome_iff_exists.1 h
    exact ⟨v, hv, kp, hk, s, (newText_iff ..).1 hs⟩

/-- **C93.** The test succeeds exactly if there is something to convert, and if there is not, nothing changes.
The full claim would have the parts of the given type in place of those the code looks for (`convert_types`, `convert_capitals`). -/
theorem convert_result_partial (n : Names N) (x : Lib N) (source target : Bytes) (isNot : Bool) (c : Ctx N) {r c'}
    (h : convert n x source target isNot c = some (r, c')) :
    (r ≠ isNot ↔ Something x source target c.parts) ∧ (¬ Something x source target c.parts → c' = c) ∧
      (c'.changed = true ↔ c.changed = true ∨ Something x source target c.parts) ∧ c'.raw = c.raw := by
  unfold convert at h
  cases hc : chosen source target with
  | none =>
    have hn : ¬ Something x source target c.parts := fun ⟨v, hv, _⟩ => chosen_none _ _ hc v hv
    simp only [hc, Option.some.injEq, Prod.mk.injEq, Bool.false_xor] at h
    obtain ⟨rfl, rfl⟩ := h
    simp [hn]
  | some v =>
    have hv := (chosen_iff _ _ _).1 hc
    simp only [hc, Option.map_eq_some_iff, Prod.mk.injEq] at h
    obtain ⟨q, h1, rfl, rfl⟩ := h
    obtain ⟨i1, i2, i3⟩ := convertParts_after n x v _ _ _ h1
    rw [something_iff hv, ← i2]
    refine ⟨by cases q.2.2 <;> cases isNot <;> simp, ?_, by simp, rfl⟩
    intro hn
    have hn' : ∀ kp ∈ c.parts, newText x v kp = none := by
      intro kp hk
      by_contra he
      exact hn (i2.2 ⟨kp, hk, Option.isSome_iff_ne_none.2 he⟩)
    rw [convertParts_none n x v _ _ hn'] at h1
    injection h1 with h1
    subst h1
    simp

/-- **C93.** The parts that are not to be converted stay as they are. -/
theorem convert_others (n : Names N) (x : Lib N) (source target : Bytes) (isNot : Bool) (c : Ctx N) {r c'}
    (h : convert n x source target isNot c = some (r, c')) {i : Nat} {kp} (hk : c.parts[i]? = some kp)
    (hn : ∀ v s, Wanted source target v → ¬ Gives x v kp s) : c'.parts[i]? = some kp ∧ c'.parts.length = c.parts.length := by
  unfold convert at h
  cases hc : chosen source target with
  | none =>
    simp only [hc, Option.some.injEq, Prod.mk.injEq] at h
    obtain ⟨-, rfl⟩ := h
    exact ⟨hk, rfl⟩
  | some v =>
    have hv := (chosen_iff _ _ _).1 hc
    simp only [hc, Option.map_eq_some_iff, Prod.mk.injEq] at h
    obtain ⟨q, h1, rfl, rfl⟩ := h
    obtain ⟨i1, -, -⟩ := convertParts_after n x v _ _ _ h1
    refine ⟨?_, i1.length_eq.symm⟩
    have hlt := (List.getElem?_eq_some_iff.1 hk)
    obtain ⟨hl, he⟩ := hlt
    have hl' : i < q.1.length := by rw [← i1.length_eq]; exact hl
    have := i1.get hl hl'
    simp only [List.get_eq_getElem, he] at this
    rw [List.getElem?_eq_getElem hl']
    generalize q.1[i] = z at this
    cases this with
    | same => rfl
    | @new k p _ _ _ hcv =>
      exfalso
      have e : (newText x v (k, p)).isSome := by simp [newText, hcv]
      obtain ⟨s, hs⟩ := Option.isSome_iff_exists.1 e
      exact hn v s hv ((newText_iff ..).1 hs)

/-- **C93.** What has been converted is not converted again. -/
theorem convert_twice (n : Names N) (x : Lib N) (source target : Bytes) (isNot : Bool) (c : Ctx N) {r c'}
    (h : convert n x source target isNot c = some (r, c')) (isNot' : Bool) :
    convert n x source target isNot' c' = some (isNot', c') := by
  unfold convert at h ⊢
  cases hc : chosen source target with
  | none => simp
  | some v =>
    simp only [hc, Option.map_eq_some_iff, Prod.mk.injEq] at h
    obtain ⟨q, h1, rfl, rfl⟩ := h
    obtain ⟨i1, -, -⟩ := convertParts_after n x v _ _ _ h1
    have : ∀ kp ∈ q.1, newText x v kp = none := by
      intro kp hk
      obtain ⟨i, hi, he⟩ := List.getElem_of_mem hk
      have := i1.get (by rw [i1.length_eq]; exact hi) hi
      simp only [List.get_eq_getElem, he] at this
      exact after_done this
    simp only [convertParts_none n x v _ _ this, Option.map_some, Bool.false_xor, Bool.or_false]

/-! ## C94 -/

/-- A part before and after, with its new text. -/
theorem after_get {n : Names N} {x : Lib N} {v : Conv} {ps ps' : List (Kind × Part N)} (h : List.Forall₂ (After n x v) ps ps')
    {id : Nat} {p : Part N} (hp : (ps.map (·.2))[id]? = some p) :
    ((ps[id]?).bind (newText x v) = none ∧ (ps'.map (·.2))[id]? = some p) ∨
    ∃ k k' body ct, ps[id]? = some (k, p) ∧ converted x v k p = some (k', body, ct) ∧
      (ps[id]?).bind (newText x v) = some (ascii "Content-Type" ++ ascii ": " ++ ct ++ crlf ++ crlf ++ body) ∧
      (ps'.map (·.2))[id]? =
        some (.mk [newField (n.other (ascii "Content-Type")) (ascii "Content-Type") ct] p.header 0 p.stop true (.text body)) := by
  rw [List.getElem?_map, Option.map_eq_some_iff] at hp
  obtain ⟨⟨k, p'⟩, hk, rfl⟩ := hp
  obtain ⟨hl, he⟩ := List.getElem?_eq_some_iff.1 hk
  have hl' : id < ps'.length := by rw [← h.length_eq]; exact hl
  have := h.get hl hl'
  simp only [List.get_eq_getElem, he] at this
  rw [hk, List.getElem?_map, List.getElem?_eq_getElem hl']
  generalize ps'[id] = z at this
  cases this with
  | same hn => exact .inl ⟨by simpa using hn, rfl⟩
  | @new _ _ k' body ct hc => exact .inr ⟨k, k', body, ct, rfl, hc, by simp [newText, hc], rfl⟩

theorem converted_text {x : Lib N} {v : Conv} {k p r} (h : converted x v k p = some r) : ∃ t, p.content = .text t := by
  unfold converted at h
  split at h
  · exact ⟨_, by assumption⟩
  · exact ⟨_, by assumption⟩
  · exact ⟨_, by assumption⟩
  · cases h

theorem shows_after {n : Names N} {x : Lib N} {v : Conv} {ps ps' : List (Kind × Part N)} (h : List.Forall₂ (After n x v) ps ps')
    {raw : Bytes} {id a b t} (hs : Shows raw (ps.map (·.2)) id a b t) :
    ∃ t', Shows raw (ps'.map (·.2)) id a b t' ∧ t'.text = textWith (fun i => (ps[i]?).bind (newText x v)) t := by
  have new : ∀ {id : Nat} {p : Part N} {a b : Nat} {ct body : Bytes}, (ps'.map (·.2))[id]? =
        some (.mk [newField (n.other (ascii "Content-Type")) (ascii "Content-Type") ct] p.header 0 p.stop true (.text body)) →
      p.header = a → p.stop = b → 0 < b → b ≤ raw.length → ∃ t', Shows raw (ps'.map (·.2)) id a b t' ∧
        t'.text = ascii "Content-Type" ++ ascii ": " ++ ct ++ crlf ++ crlf ++ body := by
    intro id p a b ct body h1 h2 h3 h4 h5
    refine ⟨_, Shows.replaced (x := body) (fs := [ascii "Content-Type" ++ ascii ": " ++ ct ++ crlf]) h1 rfl rfl h2 h3 h4 h5 rfl, ?_⟩
    show List.flatten _ ++ crlf ++ [] ++ body = _
    simp only [List.flatten_cons, List.flatten_nil, List.append_nil, List.append_assoc]
  refine Shows.rec
    (motive_1 := fun id a b t _ => ∃ t', Shows raw (ps'.map (·.2)) id a b t' ∧
      t'.text = textWith (fun i => (ps[i]?).bind (newText x v)) t)
    (motive_2 := fun e subs ks e' _ => ∃ ks', ShowsAll raw (ps'.map (·.2)) e subs ks' e' ∧
      Tree.text.texts ks' = textWith.textsWith (fun i => (ps[i]?).bind (newText x v)) ks) ?_ ?_ ?_ ?_ ?_ hs
  · intro id p a b fs y h1 h2 h3 h4 h5 h6 h7
    obtain ⟨s1, s2⟩ := shows_pos (.leaf h1 h2 h3 h4 h5 h6 h7)
    rcases after_get h h1 with ⟨e1, e2⟩ | ⟨k, k', body, ct, -, -, e1, e2⟩
    · exact ⟨_, .leaf e2 h2 h3 h4 h5 h6 h7, by simp only [textWith, e1]; rfl⟩
    · obtain ⟨t', e3, e4⟩ := new e2 h4 h5 s1 s2
      exact ⟨t', e3, by simp only [textWith, e1]; exact e4⟩
  · intro id p a b fs y h1 h2 h3 h4 h5 h6 h7 h8
    rcases after_get h h1 with ⟨e1, e2⟩ | ⟨k, k', body, ct, -, -, e1, e2⟩
    · exact ⟨_, .replaced e2 h2 h3 h4 h5 h6 h7 h8, by simp only [textWith, e1]; rfl⟩
    · obtain ⟨t', e3, e4⟩ := new e2 h4 h5 h6 h7
      exact ⟨t', e3, by simp only [textWith, e1]; exact e4⟩
  · intro id p a b fs subs ks e y h1 h2 h3 h4 h5 h6 _ h8 ih
    obtain ⟨ks', i1, i2⟩ := ih
    rcases after_get h h1 with ⟨e1, e2⟩ | ⟨k, k', body, ct, -, hc, -, -⟩
    · exact ⟨_, .multi e2 h2 h3 h4 h5 h6 i1 h8, by simp only [textWith, e1, Tree.text, i2]⟩
    · obtain ⟨t, ht⟩ := converted_text hc
      rw [h3] at ht
      cases ht
  · intro e
    exact ⟨[], .nil, rfl⟩
  · intro e id a b t g subs ks e' h1 _ _ i1 i2
    obtain ⟨t', j1, j2⟩ := i1
    obtain ⟨ks', k1, k2⟩ := i2
    exact ⟨(g, t') :: ks', .cons h1 j1 k1, by simp only [Tree.text.texts, textWith.textsWith, j2, k2]⟩

/-- **C94.** After a conversion the message is written with the new texts in the place of the parts converted; every byte
outside of these parts is as it was.
The full claim would hold for messages made by `enclose` too, and keep the header of the message (`convert_loses_header`). -/
theorem convert_written_partial [DecidableEq N] (ct : N) (n : Names N) (x : Lib N) {source target : Bytes} {v : Conv} (hv : Wanted source target v)
    (isNot : Bool) (c : Ctx N) {a b t} (hs : Shows c.msg.raw c.msg.parts 0 a b t) {g} (hg : NewTexts x v c.parts g) {r c'}
    (h : convert n x source target isNot c = some (r, c')) :
    Writes ct c'.msg (textWith g t ++ c.raw.drop b) := by
  have e := newTexts_eq hg
  subst e
  unfold convert at h
  simp only [(chosen_iff _ _ _).2 hv, Option.map_eq_some_iff, Prod.mk.injEq] at h
  obtain ⟨q, h1, rfl, rfl⟩ := h
  obtain ⟨i1, -, -⟩ := convertParts_after n x v _ _ _ h1
  obtain ⟨t', s1, s2⟩ := shows_after i1 hs
  rw [← s2]
  exact writes_whole (m := ⟨c.raw, q.1.map (·.2)⟩) (.plain s1)

/-- **C94.** If the message is a single text, nothing is left of it, not even its header: it is written as the new text,
which has no field but `Content-Type`. -/
theorem convert_single [DecidableEq N] (ct : N) (n : Names N) (x : Lib N) {source target : Bytes} {v : Conv} (hv : Wanted source target v)
    (isNot : Bool) (c : Ctx N) {a b t} (hs : Shows c.msg.raw c.msg.parts 0 a b t) {kp s} (h0 : c.parts[0]? = some kp)
    (hg : Gives x v kp s) {r c'} (h : convert n x source target isNot c = some (r, c')) :
    Writes ct c'.msg (s ++ c.raw.drop b) := by
  have := convert_written_partial ct n x hv isNot c hs (newTexts_exist x v c.parts) h
  have e : textWith (fun i => (c.parts[i]?).bind (newText x v)) t = s := by
    have hid : ∀ {t}, Shows c.msg.raw c.msg.parts 0 a b t → ∃ fs sep ks rest, t = .node 0 fs sep ks rest := by
      intro t hs
      cases hs
      · exact ⟨_, _, _, _, rfl⟩
      · exact ⟨_, _, _, _, rfl⟩
      · exact ⟨_, _, _, _, rfl⟩
    obtain ⟨fs, sep, ks, rest, rfl⟩ := hid hs
    simp only [textWith, h0, Option.bind_some, (newText_iff ..).2 hg]
  rwa [e] at this

/-! ## C95 -/

/-- The number of parts that are converted. -/
def count (g : Nat → Option Bytes) (n : Nat) : Nat := ((List.range n).filter fun i => (g i).isSome).length

/-- A part as it was received: its header fields, an empty line, and its text lie one after the other. -/
def Received (raw : Bytes) (p : Part N) : Prop :=
  p.body ≠ 0 ∧ ∃ fs, lines raw p.headers = some fs ∧ p.header + fs.flatten.length + 2 = p.body ∧ p.body ≤ p.stop

/-- The bytes a part has had, if it is converted, and the bytes that it has then, both as they are counted. -/
def oldOf (x : Lib N) (v : Conv) (kp : Kind × Part N) : Nat := if (newText x v kp).isSome then kp.2.stop - kp.2.header else 0
def newOf (x : Lib N) (v : Conv) (kp : Kind × Part N) : Nat := ((newText x v kp).map fun s => s.length - 2).getD 0

theorem convertParts_size (n : Names N) (x : Lib N) (v : Conv) : ∀ (ps : List (Kind × Part N)) (size : Nat),
    (∀ kp ∈ ps, (newText x v kp).isSome → kp.2.body ≠ 0 ∧ kp.2.header ≤ kp.2.stop) → (ps.map (oldOf x v)).sum ≤ size →
    ∃ r, convertParts n x v ps size = some r ∧ r.2.1 + (ps.map (oldOf x v)).sum = size + (ps.map (newOf x v)).sum
  | [], size, _, _ => ⟨_, rfl, by simp⟩
  | (k, p) :: ps, size, h, hsz => by
    have h' : ∀ kp ∈ ps, (newText x v kp).isSome → kp.2.body ≠ 0 ∧ kp.2.header ≤ kp.2.stop :=
      fun kp hk => h kp (List.mem_cons_of_mem _ hk)
    rw [convertParts]
    simp only [List.map_cons, List.sum_cons] at hsz ⊢
    cases hc : converted x v k p with
    | none =>
      have hn := newText_none.2 hc
      have o : oldOf x v (k, p) = 0 := by simp [oldOf, hn]
      have w : newOf x v (k, p) = 0 := by simp [newOf, hn]
      obtain ⟨r, r1, r2⟩ := convertParts_size n x v ps size h' (by omega)
      exact ⟨_, by simp only [r1, Option.map_some]; rfl, by simp only; omega⟩
    | some r0 =>
      obtain ⟨k', body, ct⟩ := r0
      have hn : newText x v (k, p) = some (ascii "Content-Type" ++ ascii ": " ++ ct ++ crlf ++ crlf ++ body) := by simp [newText, hc]
      obtain ⟨hb, hh⟩ := h (k, p) (List.mem_cons_self ..) (by rw [hn]; rfl)
      have o : oldOf x v (k, p) = p.stop - p.header := by simp [oldOf, hn]
      have w : newOf x v (k, p) = ct.length + body.length + 16 := by
        simp only [newOf, hn, Option.map_some, Option.getD_some, List.length_append, show (ascii "Content-Type").length = 12 from rfl,
          show (ascii ": ").length = 2 from rfl, show crlf.length = 2 from rfl]
        omega
      have ho : oldLen p = some (p.stop - p.header) := by
        unfold oldLen
        rw [if_pos hb, if_pos hh]
      simp only [ho]
      rw [if_neg (by omega)]
      obtain ⟨r, r1, r2⟩ := convertParts_size n x v ps (size + ct.length + body.length + 16 - (p.stop - p.header)) h' (by omega)
      exact ⟨_, by simp only [r1, Option.map_some]; rfl, by simp only; omega⟩

/-- A sum over the numbers of parts. -/
def sumOf (f : Nat → Nat) (l : List Nat) : Nat := (l.map f).sum

theorem sumOf_append (f : Nat → Nat) (l l' : List Nat) : sumOf f (l ++ l') = sumOf f l + sumOf f l' := by simp [sumOf]

theorem sumOf_range {α : Type} (f : α → Nat) : ∀ (l : List α), sumOf (fun i => ((l[i]?).map f).getD 0) (List.range l.length) = (l.map f).sum
  | [] => rfl
  | y :: ys => by
    have ih := sumOf_range f ys
    unfold sumOf at ih ⊢
    rw [List.length_cons, List.range_succ_eq_map, List.map_cons, List.sum_cons, List.map_map, List.map_cons, List.sum_cons, ← ih]
    rfl

theorem length_filter_sum {α : Type} (p : α → Bool) : ∀ l : List α, (l.filter p).length = (l.map fun i => if p i then 1 else 0).sum
  | [] => rfl
  | y :: ys => by
    rw [List.filter_cons, List.map_cons, List.sum_cons, ← length_filter_sum p ys]
    cases p y <;> simp [Nat.add_comm]

theorem count_eq {x : Lib N} {v : Conv} (ps : List (Kind × Part N)) :
    count (fun i => (ps[i]?).bind (newText x v)) ps.length = (ps.map fun kp => if (newText x v kp).isSome then 1 else 0).sum := by
  unfold count
  rw [length_filter_sum, ← sumOf_range (fun kp => if (newText x v kp).isSome then 1 else 0) ps]
  unfold sumOf
  congr 1
  refine List.map_congr_left fun i hi => ?_
  show (if ((ps[i]?).bind (newText x v)).isSome then 1 else 0) = _
  generalize ps[i]? = o
  cases o <;> simp

theorem sum_add {α : Type} (f g : α → Nat) : ∀ l : List α, (l.map fun i => f i + 2 * g i).sum = (l.map f).sum + 2 * (l.map g).sum
  | [] => rfl
  | y :: ys => by
    simp only [List.map_cons, List.sum_cons, sum_add f g ys]
    omega

theorem textWith_length {x : Lib N} {v : Conv} {ps : List (Kind × Part N)} {raw : Bytes}
    (hr : ∀ (i : Nat) k p, ps[i]? = some (k, p) → (newText x v (k, p)).isSome → Received raw p) {id a b t}
    (hs : Shows raw (ps.map (·.2)) id a b t) :
    (textWith (fun i => (ps[i]?).bind (newText x v)) t).length + sumOf (fun i => ((ps[i]?).map (oldOf x v)).getD 0) t.ids
      = t.text.length + sumOf (fun i => ((ps[i]?).map fun kp => ((newText x v kp).map List.length).getD 0).getD 0) t.ids
    ∧ sumOf (fun i => ((ps[i]?).map (oldOf x v)).getD 0) t.ids ≤ t.text.length := by
  have none : ∀ {id : Nat} {k p}, ps[id]? = some (k, p) → newText x v (k, p) = none →
      (ps[id]?).bind (newText x v) = none ∧ ((ps[id]?).map (oldOf x v)).getD 0 = 0 ∧
      ((ps[id]?).map fun kp => ((newText x v kp).map List.length).getD 0).getD 0 = 0 := by
    intro id k p h1 h2
    rw [h1]
    simp [h2, oldOf]
  have get : ∀ {id : Nat} {p : Part N}, (ps.map (·.2))[id]? = some p → ∃ k, ps[id]? = some (k, p) := by
    intro id p h
    rw [List.getElem?_map, Option.map_eq_some_iff] at h
    obtain ⟨⟨k, p'⟩, h1, rfl⟩ := h
    exact ⟨k, h1⟩
  refine Shows.rec
    (motive_1 := fun id a b t _ => (textWith (fun i => (ps[i]?).bind (newText x v)) t).length
        + sumOf (fun i => ((ps[i]?).map (oldOf x v)).getD 0) t.ids
      = t.text.length + sumOf (fun i => ((ps[i]?).map fun kp => ((newText x v kp).map List.length).getD 0).getD 0) t.ids
      ∧ sumOf (fun i => ((ps[i]?).map (oldOf x v)).getD 0) t.ids ≤ t.text.length)
    (motive_2 := fun e subs ks e' _ => (textWith.textsWith (fun i => (ps[i]?).bind (newText x v)) ks).length
        + sumOf (fun i => ((ps[i]?).map (oldOf x v)).getD 0) (Tree.ids.forest ks)
      = (Tree.text.texts ks).length
        + sumOf (fun i => ((ps[i]?).map fun kp => ((newText x v kp).map List.length).getD 0).getD 0) (Tree.ids.forest ks)
      ∧ sumOf (fun i => ((ps[i]?).map (oldOf x v)).getD 0) (Tree.ids.forest ks) ≤ (Tree.text.texts ks).length) ?_ ?_ ?_ ?_ ?_ hs
  · intro id p a b fs y h1 h2 h3 h4 h5 h6 h7
    obtain ⟨k, hk⟩ := get h1
    cases hn : newText x v (k, p) with
    | none =>
      obtain ⟨e1, e2, e3⟩ := none hk hn
      simp only [textWith, e1, Tree.ids, Tree.ids.forest, sumOf, List.map_cons, List.map_nil, List.sum_cons, List.sum_nil, e2, e3]
      exact ⟨rfl, Nat.zero_le _⟩
    | some s =>
      obtain ⟨g1, fs', g2, g3, g4⟩ := hr id k p hk (by rw [hn]; rfl)
      rw [h6] at g2
      injection g2 with g2
      subst g2
      obtain ⟨l1, l2, l3⟩ := Build.slice_some h7
      have l4 : y.length = b - p.body := by
        rw [l3, List.length_drop, List.length_take]
        omega
      simp only [textWith, hk, Option.bind_some, hn, Tree.ids, Tree.ids.forest, sumOf, List.map_cons, List.map_nil, List.sum_cons,
        List.sum_nil, Option.map_some, Option.getD_some, oldOf, Option.isSome_some, if_true, Tree.text, Tree.text.texts,
        List.length_append, List.length_nil, l4, show crlf.length = 2 from rfl]
      omega
  · intro id p a b fs y h1 h2 h3 h4 h5 h6 h7 h8
    obtain ⟨k, hk⟩ := get h1
    cases hn : newText x v (k, p) with
    | none =>
      obtain ⟨e1, e2, e3⟩ := none hk hn
      simp only [textWith, e1, Tree.ids, Tree.ids.forest, sumOf, List.map_cons, List.map_nil, List.sum_cons, List.sum_nil, e2, e3]
      exact ⟨rfl, Nat.zero_le _⟩
    | some s => exact absurd h2 (hr id k p hk (by rw [hn]; rfl)).1
  · intro id p a b fs subs ks e y h1 h2 h3 h4 h5 h6 _ h8 ih
    obtain ⟨k, hk⟩ := get h1
    cases hn : newText x v (k, p) with
    | none =>
      obtain ⟨e1, e2, e3⟩ := none hk hn
      simp only [textWith, e1, Tree.ids, sumOf, List.map_cons, List.sum_cons, e2, e3, Tree.text, List.length_append] at ih ⊢
      omega
    | some s =>
      exfalso
      cases hc : converted x v k p with
      | none => rw [newText_none.2 hc] at hn; cases hn
      | some r =>
        obtain ⟨t, ht⟩ := converted_text hc
        rw [h3] at ht
        cases ht
  · intro e
    exact ⟨rfl, Nat.le_refl _⟩
  · intro e id a b t g subs ks e' h1 _ _ i1 i2
    simp only [textWith.textsWith, Tree.text.texts, Tree.ids.forest, List.length_append, sumOf_append] at i1 i2 ⊢
    omega

/-- **C95.** If the size of the message is right, all parts occur in it once and those to be converted are as they were
received, then nothing goes wrong, and the message is two bytes longer than its size for each part converted.

What is missing: the empty line after the new header is not counted (`convert_size_wrong`); parts that have been changed
before (`convert_panics`, `convert_drifts`). -/
theorem convert_size_partial [DecidableEq N] (ct : N) (n : Names N) (x : Lib N) {source target : Bytes} {v : Conv}
    (hv : Wanted source target v) (isNot : Bool) (c : Ctx N) {a b t} (hs : Shows c.msg.raw c.msg.parts 0 a b t)
    (hall : t.ids.Perm (List.range c.parts.length)) (hsize : c.size = (t.text ++ c.raw.drop b).length)
    (hr : ∀ k p s, (k, p) ∈ c.parts → Gives x v (k, p) s → Received c.raw p) {g} (hg : NewTexts x v c.parts g) :
    ∃ r c' w, convert n x source target isNot c = some (r, c') ∧ Writes ct c'.msg w ∧
      w.length = c'.size + 2 * count g c.parts.length := by
  have hr' : ∀ (i : Nat) k p, c.parts[i]? = some (k, p) → (newText x v (k, p)).isSome → Received c.raw p := by
    intro i k p h1 h2
    obtain ⟨s, h3⟩ := Option.isSome_iff_exists.1 h2
    exact hr k p s (List.mem_of_getElem? h1) ((newText_iff ..).1 h3)
  obtain ⟨hlen, hle⟩ := textWith_length hr' hs
  rw [show sumOf (fun i => ((c.parts[i]?).map (oldOf x v)).getD 0) t.ids = (c.parts.map (oldOf x v)).sum by
      rw [← sumOf_range]; exact (hall.map _).sum_nat,
    show sumOf (fun i => ((c.parts[i]?).map fun kp => ((newText x v kp).map List.length).getD 0).getD 0) t.ids
        = (c.parts.map fun kp => ((newText x v kp).map List.length).getD 0).sum by
      rw [← sumOf_range]; exact (hall.map _).sum_nat] at hlen
  rw [show sumOf (fun i => ((c.parts[i]?).map (oldOf x v)).getD 0) t.ids = (c.parts.map (oldOf x v)).sum by
      rw [← sumOf_range]; exact (hall.map _).sum_nat] at hle
  have hcount : (c.parts.map fun kp => ((newText x v kp).map List.length).getD 0).sum
      = (c.parts.map (newOf x v)).sum + 2 * count g c.parts.length := by
    rw [newTexts_eq hg, count_eq, ← sum_add]
    congr 1
    refine List.map_congr_left fun kp _ => ?_
    cases hn : newText x v kp with
    | none => simp [newOf, hn]
    | some s =>
      have h2 : 2 ≤ s.length := by
        rw [newText_iff] at hn
        cases hn <;> simp only [List.length_append]
        · rw [show (ascii "Content-Type: text/plain; charset=utf8\r\n\r\n").length = 42 by decide +kernel]; omega
        · rw [show (ascii "Content-Type: text/html; charset=utf8\r\n\r\n").length = 41 by decide +kernel]; omega
        · rw [show (ascii "Content-Type: text/html; charset=utf8\r\n\r\n").length = 41 by decide +kernel]; omega
      simp only [newOf, hn, Option.map_some, Option.getD_some, Option.isSome_some, if_true]
      omega
  have hold : (c.parts.map (oldOf x v)).sum ≤ c.size := by
    rw [hsize, List.length_append]
    omega
  obtain ⟨q, q1, q2⟩ := convertParts_size n x v c.parts c.size (by
    intro kp hk h
    obtain ⟨s, h3⟩ := Option.isSome_iff_exists.1 h
    obtain ⟨g1, fs, -, g3, g4⟩ := hr kp.1 kp.2 s hk ((newText_iff ..).1 h3)
    exact ⟨g1, by omega⟩) hold
  have hc : convert n x source target isNot c =
      some (xor q.2.2 isNot, { c with parts := q.1, size := q.2.1, changed := c.changed || q.2.2 }) := by
    unfold convert
    simp only [(chosen_iff _ _ _).2 hv, q1, Option.map_some]
  refine ⟨_, _, _, hc, convert_written_partial ct n x hv isNot c hs hg hc, ?_⟩
  rw [newTexts_eq hg] at hcount ⊢
  simp only [List.length_append] at hsize ⊢
  omega

/-! ## Cases -/

/-- HTML is text in angle brackets; the second field of a part tells its type. -/
def exLib : Lib Bytes where
  toHtml t := ascii "<" ++ t ++ ascii ">"
  toText t := t.filter fun c => c ≠ 60 ∧ c ≠ 62
  subtype hs := hs[1]?.map fun h => h.value.text

/-- The message of `BuildReplace` with two texts in it. -/
def sample : Ctx Bytes :=
  ⟨Build.sample.msg.raw, [.other, .other, .text, .text].zip Build.sample.msg.parts, Build.sample.size, false⟩

def exWritten (r : Option (Bool × Ctx Bytes)) : Option (Bool × Bytes × Nat) :=
  r.bind fun r => ((Build.build Build.ct 20 r.2.msg).bind id).map fun w => (r.1, w, r.2.size)

example : exWritten (convert Build.names exLib (ascii "text/plain") (ascii "TEXT/html") false sample) = some (true, ascii
    "Subject: s\r\nTo: a\r\n\r\n-x\r\n\r\n-y\r\nContent-Type: text/html; charset=utf8\r\n\r\n<p>\r\n-y-\r\n-x\r\nContent-Type: text/html; charset=utf8\r\n\r\n<q>\r\n-x-\r\n",
    67 + 2 * (44 - 9) - 2 * 2) := by
  decide +kernel

example : Wanted (ascii "text/plain") (ascii "TEXT/html") .textToHtml := (chosen_iff _ _ _).1 (by decide +kernel)
example : Something exLib (ascii "text/plain") (ascii "TEXT/html") sample.parts :=
  ⟨.textToHtml, (chosen_iff _ _ _).1 (by decide +kernel), _, List.mem_of_getElem? (i := 2) rfl, _, .toHtml rfl⟩

/-- The hypotheses of `convert_written_partial` and `convert_size_partial` hold for it. -/
example : ∃ t, Shows sample.msg.raw sample.msg.parts 0 0 67 t ∧ t.ids.Perm (List.range sample.parts.length) ∧
    sample.size = (t.text ++ sample.raw.drop 67).length ∧
    ∀ k p s, (k, p) ∈ sample.parts → Gives exLib .textToHtml (k, p) s → Received sample.raw p := by
  have hleaf : ∀ (id : Nat) (p : Part Bytes) fs y, sample.msg.parts[id]? = some p → p.body ≠ 0 →
      (∀ subs, p.content ≠ .multipart subs) → lines sample.msg.raw p.headers = some fs →
      Build.slice sample.msg.raw p.body p.stop = some y → Shows sample.msg.raw sample.msg.parts id p.header p.stop (.node id fs crlf [] y) :=
    fun id p fs y h1 h2 h3 h4 h5 => .leaf h1 h2 h3 rfl rfl h4 h5
  refine ⟨_, .multi rfl (by decide) rfl rfl rfl (fs := [ascii "Subject: s\r\n", ascii "To: a\r\n"]) (by decide +kernel)
    (.cons (g := ascii "-x\r\n") (a := 25) (b := 47) (by decide +kernel) (.multi rfl (by decide) rfl rfl rfl (fs := []) (by decide +kernel)
      (.cons (g := ascii "-y\r\n") (by decide +kernel)
        (hleaf 2 _ [ascii "T: p\r\n"] (ascii "p") rfl (by decide) (by intro s h; cases h) (by decide +kernel) (by decide +kernel)) .nil)
        (x := ascii "\r\n-y-\r\n") (by decide +kernel))
    (.cons (g := ascii "-x\r\n") (by decide +kernel)
      (hleaf 3 _ [ascii "T: q\r\n"] (ascii "q") rfl (by decide) (by intro s h; cases h) (by decide +kernel) (by decide +kernel)) .nil))
    (x := ascii "\r\n-x-\r\n") (by decide +kernel), by decide +kernel, by decide +kernel, ?_⟩
  intro k p s hm hg
  have : (k, p) ∈ [(Kind.text, Build.Part.mk [⟨ascii "T", ⟨ascii "T", ascii "p", 31, 33, 37⟩⟩] 31 39 40 false (.text (ascii "p"))),
      (Kind.text, Build.Part.mk [⟨ascii "T", ⟨ascii "T", ascii "q", 51, 53, 57⟩⟩] 51 59 60 false (.text (ascii "q")))] := by
    cases hg
    simp only [sample, Build.sample, List.zip_cons_cons, List.zip_nil_right, List.mem_cons, Prod.mk.injEq, reduceCtorEq, false_and,
      false_or, true_and, List.not_mem_nil, or_false] at hm ⊢
    exact hm
  simp only [List.mem_cons, Prod.mk.injEq, List.not_mem_nil, or_false] at this
  rcases this with ⟨-, rfl⟩ | ⟨-, rfl⟩
  · exact ⟨by decide, [ascii "T: p\r\n"], by decide +kernel, by decide +kernel, by decide +kernel⟩
  · exact ⟨by decide, [ascii "T: q\r\n"], by decide +kernel, by decide +kernel, by decide +kernel⟩

/-! ## Counterexamples -/

/-- A message that is a single text of the given type. -/
def exPart (sub : String) : Part Bytes :=
  .mk [⟨ascii "A", ⟨ascii "A", ascii "1", 0, 2, 6⟩⟩, ⟨ascii "B", ⟨ascii "B", ascii sub, 6, 8, 12⟩⟩] 0 14 16 false (.text (ascii "hi"))
def exSingle (sub : String) : Ctx Bytes := ⟨ascii "A: 1\r\nB: 2\r\n\r\nhi", [(.text, exPart sub)], 16, false⟩

/-- **C93 fails.** Every text is converted whatever its type and whatever the type asked for: a plain text where calendars
are to be converted, a calendar where plain texts are.  `text`, which is to stand for all of them, stands for plain texts
only. -/
theorem convert_types :
    (∀ sub, (convert Build.names exLib (ascii "text/calendar") (ascii "text/html") false (exSingle sub)).map (·.1) = some true) ∧
    (∀ sub, (convert Build.names exLib (ascii "text/plain") (ascii "text/html") false (exSingle sub)).map (·.1) = some true) ∧
    (convert Build.names exLib (ascii "text") (ascii "text/html") false (exSingle "plain")).map (·.1) = some true ∧
    (convert Build.names exLib (ascii "text") (ascii "text/html") false (exSingle "calendar")).map (·.1) = some false :=
  ⟨fun _ => rfl, fun _ => rfl, by decide +kernel, by decide +kernel⟩

/-- **C93 fails.** In capital letters the type is not known. -/
theorem convert_capitals (n : Names N) (x : Lib N) (isNot : Bool) (c : Ctx N) :
    convert n x (ascii "TEXT/PLAIN") (ascii "text/html") isNot c = some (isNot, c) := by
  have : chosen (ascii "TEXT/PLAIN") (ascii "text/html") = none := by decide +kernel
  simp [convert, this]

/-- **C94 fails**, if the other header fields of a part are to stay: those of the whole message are lost. -/
theorem convert_loses_header :
    exWritten (convert Build.names exLib (ascii "text/plain") (ascii "text/html") false (exSingle "plain"))
      = some (true, ascii "Content-Type: text/html; charset=utf8\r\n\r\n<hi>", 43) := by decide +kernel

/-- **C95 fails.** There the size is 43, and the message has 45 bytes. -/
theorem convert_size_wrong :
    ((exWritten (convert Build.names exLib (ascii "text/plain") (ascii "text/html") false (exSingle "plain"))).map
      fun r => (r.2.1.length, r.2.2)) = some (45, 43) := by decide +kernel

/-- **C95 fails.** The header of a part that has been converted is counted again each time: after a second conversion the
message has 44 bytes, and its size is 81. -/
theorem convert_drifts :
    (((convert Build.names exLib (ascii "text/plain") (ascii "text/html") false (exSingle "plain")).bind fun r =>
      exWritten (convert Build.names exLib (ascii "text/html") (ascii "text/plain") false r.2)).map
        fun r => (r.2.1.length, r.2.2)) = some (44, 81) := by decide +kernel

/-- A message with a long header field. -/
def exLong : Build.Ctx Bytes :=
  ⟨⟨ascii "A: " ++ List.replicate 60 97 ++ ascii "\r\n\r\nhi",
    [.mk [⟨ascii "A", ⟨ascii "A", List.replicate 60 97, 0, 2, 65⟩⟩] 0 67 69 false (.text (ascii "hi"))]⟩, 69⟩

/-- **C95 fails.** After a long header field has been deleted, its bytes are subtracted once more: the size falls below zero,
which is a panic (with overflow checks). -/
theorem convert_panics :
    ((Build.deleteHeader (fun _ => false) exLong 0 (ascii "A") none false (fun _ => true) 9).map fun c =>
      (c.size, (convert Build.names exLib (ascii "text/plain") (ascii "text/html") false
        ⟨c.msg.raw, [.text].zip c.msg.parts, c.size, true⟩).isNone)) = some (4, true) := by decide +kernel

end Sieve.Convert
