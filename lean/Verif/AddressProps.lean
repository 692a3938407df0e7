import Verif.Prelude
import Verif.AddressModel
/-
C30, C32, C42: redirect addresses, mailto recipients, the user's From field.
-/
namespace Sieve.Address

/-! ### C30 -/

/-- Each character with whether it is inside a quoted string (`"` opens, the next `"` not preceded
by a backslash closes). -/
def quoteTags (inq : Bool) (last : Char) : List Char → List (Char × Bool)
  | [] => []
  | c :: cs =>
    (c, inq) :: quoteTags (if c = '"' then (if inq then last == '\\' else true) else inq) c cs

/-- Cut at every `<`. -/
def segments (cur : List (Char × Bool)) : List (Char × Bool) → List (List (Char × Bool))
  | [] => [cur]
  | x :: xs => if x.1 = '<' then cur :: segments [] xs else segments (cur ++ [x]) xs

/-- What may occur in an address: no quotes, no angle brackets, no unquoted white space. -/
def keep (x : Char × Bool) : Bool :=
  x.1 != '"' && x.1 != '<' && x.1 != '>' && (!asciiSpace x.1 || x.2)

/-- An unquoted `@` never comes first and never twice. -/
def AtOk (seg : List (Char × Bool)) : Prop :=
  ∀ a b, seg.filter keep = a ++ ('@', false) :: b → a ≠ [] ∧ ('@', false) ∉ a

/-- There is an unquoted dot after an unquoted `@`. -/
def HasAtDot (seg : List (Char × Bool)) : Prop :=
  ∃ a b c, seg.filter keep = a ++ ('@', false) :: b ++ ('.', false) :: c

theorem AtOk.of_append {a b : List (Char × Bool)} (h : AtOk (a ++ b)) : AtOk a := by
  intro p q hpq
  exact h p (q ++ b.filter keep) (by rw [List.filter_append, hpq]; simp)

/-- Correspondence of the scanner state with the current segment. -/
structure San.Rep (s : San) (cur : List (Char × Bool)) (inq : Bool) (last : Char) : Prop where
  res : s.result = (cur.filter keep).map Prod.fst
  quote : s.inQuote = inq
  last : s.lastCh = last
  hat : s.hasAt = true ↔ ('@', false) ∈ cur.filter keep
  dot : s.hasDot = true ↔ HasAtDot cur

theorem append_singleton_split {α : Type} {l a b : List α} {x y : α}
    (h : l ++ [x] = a ++ y :: b) :
    (b = [] ∧ a = l ∧ x = y) ∨ ∃ b', b = b' ++ [x] ∧ l = a ++ y :: b' := by
  rcases List.eq_nil_or_concat b with rfl | ⟨b', z, rfl⟩
  · obtain ⟨h1, h2⟩ := List.append_inj' h rfl
    simp at h2
    exact Or.inl ⟨rfl, h1.symm, h2⟩
  · right
    have h' : l ++ [x] = (a ++ y :: b') ++ [z] := by simpa using h
    obtain ⟨h1, h2⟩ := List.append_inj' h' rfl
    simp at h2
    exact ⟨b', by rw [h2]; simp, h1⟩

theorem atOk_snoc {cur : List (Char × Bool)} {x : Char × Bool} (h : AtOk cur)
    (hx : keep x = true → x = ('@', false) → cur.filter keep ≠ [] ∧ ('@', false) ∉ cur.filter keep) :
    AtOk (cur ++ [x]) := by
  intro a b hab
  rw [List.filter_append] at hab
  cases hk : keep x with
  | false =>
    rw [List.filter_cons_of_neg (by simp [hk])] at hab
    simp only [List.filter_nil, List.append_nil] at hab
    exact h a b hab
  | true =>
    rw [List.filter_cons_of_pos hk, List.filter_nil] at hab
    rcases append_singleton_split hab with ⟨_, rfl, he⟩ | ⟨b', _, hl⟩
    · exact hx hk he
    · exact h a b' hl

theorem hasAtDot_snoc {cur : List (Char × Bool)} {x : Char × Bool} :
    HasAtDot (cur ++ [x]) ↔ HasAtDot cur ∨ (x = ('.', false) ∧ ('@', false) ∈ cur.filter keep) := by
  unfold HasAtDot
  rw [List.filter_append]
  constructor
  · rintro ⟨a, b, c, h⟩
    cases hk : keep x with
    | false =>
      rw [List.filter_cons_of_neg (by simp [hk])] at h
      simp only [List.filter_nil, List.append_nil] at h
      exact Or.inl ⟨a, b, c, h⟩
    | true =>
      rw [List.filter_cons_of_pos hk, List.filter_nil] at h
      rcases append_singleton_split h with ⟨_, he, hx⟩ | ⟨c', _, hl⟩
      · right
        exact ⟨hx, by rw [← he]; simp⟩
      · exact Or.inl ⟨a, b, c', hl⟩
  · rintro (⟨a, b, c, h⟩ | ⟨rfl, hm⟩)
    · exact ⟨a, b, c ++ [x].filter keep, by rw [h]; simp⟩
    · obtain ⟨a, b, h⟩ := List.append_of_mem hm
      exact ⟨a, b, [], by rw [h]; rfl⟩

theorem keep_at : keep ('@', false) = true := by decide

/-- One step on a character other than `<`. -/
theorem San.step_spec (s : San) (cur : List (Char × Bool)) (inq : Bool) (last c : Char)
    (hs : s.Rep cur inq last) (hok : AtOk cur) (hc : c ≠ '<') :
    (∀ s', s.step c = some s' → AtOk (cur ++ [(c, inq)]) ∧
      s'.Rep (cur ++ [(c, inq)])
        (if c = '"' then (if inq then last == '\\' else true) else inq) c) ∧
    (s.step c = none → ¬ AtOk (cur ++ [(c, inq)])) := by
  obtain ⟨h1, h2, h3, h4, h5⟩ := hs
  have nokeep : keep (c, inq) = false → (cur ++ [(c, inq)]).filter keep = cur.filter keep := by
    intro h; rw [List.filter_append, List.filter_cons_of_neg (by simp [h])]; simp
  have yeskeep : keep (c, inq) = true →
      (cur ++ [(c, inq)]).filter keep = cur.filter keep ++ [(c, inq)] := by
    intro h; rw [List.filter_append, List.filter_cons_of_pos h]; rfl
  have plain : (c, inq) ≠ ('@', false) → AtOk (cur ++ [(c, inq)]) :=
    fun h => atOk_snoc hok fun _ he => absurd he h
  unfold San.step
  by_cases hq : c = '"'
  · subst hq
    rw [if_pos rfl]
    have hk : keep ('"', inq) = false := by simp [keep]
    refine ⟨?_, by simp⟩
    intro s' he
    cases he
    refine ⟨plain (by simp), ?_⟩
    constructor
    · rw [nokeep hk]; exact h1
    · simp only [h2, h3, if_true]; cases inq <;> simp [bne]
      cases hl : (last == '\\') <;> simp_all
    · rfl
    · rw [nokeep hk]; exact h4
    · rw [hasAtDot_snoc]; simp [h5]
  rw [if_neg hq]
  simp only [if_neg hq]
  by_cases hat : c = '@' ∧ s.inQuote = false
  · rw [if_pos hat]
    obtain ⟨rfl, hinq⟩ := hat
    rw [h2] at hinq; subst hinq
    by_cases hcond : s.hasAt = false ∧ s.result ≠ []
    · rw [if_pos hcond]
      refine ⟨?_, by simp⟩
      intro s' he
      cases he
      have hnot : ('@', false) ∉ cur.filter keep := fun h => by
        rw [h4.mpr h] at hcond; exact absurd hcond.1 (by simp)
      have hne : cur.filter keep ≠ [] := fun h => hcond.2 (by rw [h1, h]; rfl)
      refine ⟨atOk_snoc hok fun _ _ => ⟨hne, hnot⟩, ?_⟩
      constructor
      · rw [yeskeep keep_at]; simp [h1]
      · exact h2
      · rfl
      · rw [yeskeep keep_at]; simp
      · rw [hasAtDot_snoc]; simp [h5]
    · rw [if_neg hcond]
      refine ⟨by simp, fun _ hbad => hcond ?_⟩
      obtain ⟨p1, p2⟩ := hbad (cur.filter keep) [] (yeskeep keep_at)
      constructor
      · cases hh : s.hasAt with
        | false => rfl
        | true => exact absurd (h4.mp hh) p2
      · rw [h1]; simpa using p1
  rw [if_neg hat]
  have hnat : (c, inq) ≠ ('@', false) := by
    intro h; cases h; exact hat ⟨rfl, h2⟩
  by_cases hdot : c = '.' ∧ s.inQuote = false ∧ s.hasAt = true ∧ s.hasDot = false
  · rw [if_pos hdot]
    obtain ⟨rfl, hinq, hha, _⟩ := hdot
    rw [h2] at hinq; subst hinq
    have hk : keep ('.', false) = true := by decide
    refine ⟨?_, by simp⟩
    intro s' he
    cases he
    refine ⟨plain (by simp), ?_⟩
    constructor
    · rw [yeskeep hk]; simp [h1]
    · exact h2
    · rfl
    · rw [yeskeep hk]; simp [h4]
    · rw [hasAtDot_snoc]; simpa using Or.inr (h4.mp hha)
  rw [if_neg hdot, if_neg hc]
  have hdot' : HasAtDot (cur ++ [(c, inq)]) ↔ s.hasDot = true := by
    rw [hasAtDot_snoc, ← h5]
    constructor
    · rintro (h | ⟨h, h'⟩)
      · exact h
      · cases h
        by_contra hn
        exact hdot ⟨rfl, h2, h4.mpr h', by simpa using hn⟩
    · exact Or.inl
  have hatmem : ('@', false) ∈ (cur ++ [(c, inq)]).filter keep ↔ s.hasAt = true := by
    rw [h4, List.filter_append, List.mem_append]
    constructor
    · rintro (h | h)
      · exact h
      · rw [List.mem_filter] at h
        exact absurd (List.mem_singleton.mp h.1).symm hnat
    · exact Or.inl
  by_cases hgt : c = '>'
  · rw [if_pos hgt]
    have hk : keep (c, inq) = false := by simp [keep, hgt]
    refine ⟨?_, by simp⟩
    intro s' he
    cases he
    exact ⟨plain hnat, ⟨by rw [nokeep hk]; exact h1, h2, rfl, hatmem.symm, hdot'.symm⟩⟩
  rw [if_neg hgt]
  by_cases hsp : asciiSpace c = false ∨ s.inQuote = true
  · rw [if_pos hsp]
    have hk : keep (c, inq) = true := by
      rw [h2] at hsp
      simp [keep, hq, hc, hgt]
      rcases hsp with h | h
      · exact Or.inl h
      · exact Or.inr h
    refine ⟨?_, by simp⟩
    intro s' he
    cases he
    exact ⟨plain hnat, ⟨by rw [yeskeep hk]; simp [h1], h2, rfl, hatmem.symm, hdot'.symm⟩⟩
  · rw [if_neg hsp]
    have hk : keep (c, inq) = false := by
      rw [h2] at hsp
      simp [keep, hq, hc, hgt]
      exact ⟨by by_contra h; exact hsp (Or.inl (by simpa using h)),
        by by_contra h; exact hsp (Or.inr (by simpa using h))⟩
    refine ⟨?_, by simp⟩
    intro s' he
    cases he
    exact ⟨plain hnat, ⟨by rw [nokeep hk]; exact h1, h2, rfl, hatmem.symm, hdot'.symm⟩⟩

theorem segments_ne_nil (cur t : List (Char × Bool)) : segments cur t ≠ [] := by
  induction t generalizing cur with
  | nil => simp [segments]
  | cons x xs ih =>
    simp only [segments]
    split
    · simp
    · exact ih _

theorem segments_bad (cur t : List (Char × Bool)) (h : ¬ AtOk cur) :
    ∃ g ∈ segments cur t, ¬ AtOk g := by
  induction t generalizing cur with
  | nil => exact ⟨cur, by simp [segments], h⟩
  | cons x xs ih =>
    simp only [segments]
    split
    · exact ⟨cur, by simp, h⟩
    · exact ih _ fun hh => h hh.of_append

theorem San.run_spec (cs : List Char) (s : San) (cur : List (Char × Bool)) (inq : Bool)
    (last : Char) (hs : s.Rep cur inq last) (hok : AtOk cur) (r : List Char) :
    ((s.run cs).bind fun s =>
      if s.result ≠ [] ∧ s.hasAt = true ∧ s.hasDot = true then some s.result else none) = some r ↔
    (∀ g ∈ segments cur (quoteTags inq last cs), AtOk g) ∧
      ∃ g, (segments cur (quoteTags inq last cs)).getLast? = some g ∧ HasAtDot g ∧
        r = (g.filter keep).map Prod.fst := by
  induction cs generalizing s cur inq last with
  | nil =>
    simp only [San.run, quoteTags, segments, Option.bind_some]
    constructor
    · intro h
      split at h
      · rename_i hc
        refine ⟨by simpa using hok, cur, rfl, hs.dot.mp hc.2.2, ?_⟩
        cases h; exact hs.res
      · cases h
    · rintro ⟨_, g, hg, hd, hr⟩
      have hg' : cur = g := by simpa using hg
      subst hg'
      have hd' := hs.dot.mpr hd
      obtain ⟨a, b, c, he⟩ := hd
      have hm : ('@', false) ∈ cur.filter keep := by rw [he]; simp
      have hne : s.result ≠ [] := by
        rw [hs.res]; intro h
        rw [List.map_eq_nil_iff] at h
        rw [h] at hm; simp at hm
      rw [if_pos ⟨hne, hs.hat.mpr hm, hd'⟩, hr, hs.res]
  | cons c cs ih =>
    simp only [San.run, quoteTags, segments]
    by_cases hlt : c = '<'
    · subst hlt
      rw [if_pos rfl, if_neg (by decide)]
      have hstep : s.step '<' = some { s with result := [], hasAt := false, hasDot := false, lastCh := '<' } := by
        simp [San.step]
      rw [hstep]
      simp only [Option.bind_some]
      have hrep : ({ s with result := [], hasAt := false, hasDot := false, lastCh := '<' } : San).Rep
          [] inq '<' := ⟨rfl, hs.quote, rfl, by simp, by
        simp only [Bool.false_eq_true, false_iff]
        rintro ⟨a, b, c, h⟩
        simp at h⟩
      have hmain := ih _ [] inq '<' hrep (by intro a b h; simp at h)
      refine hmain.trans ?_
      constructor
      · rintro ⟨h1, g, h2, h3⟩
        refine ⟨fun x hx => ?_, g, ?_, h3⟩
        · rcases List.mem_cons.mp hx with rfl | hx
          · exact hok
          · exact h1 x hx
        · rw [List.getLast?_cons, h2]; rfl
      · rintro ⟨h1, g, h2, h3⟩
        refine ⟨fun x hx => h1 x (List.mem_cons_of_mem _ hx), g, ?_, h3⟩
        rw [List.getLast?_cons] at h2
        cases hl : (segments [] (quoteTags inq '<' cs)).getLast? with
        | none => exact absurd (List.getLast?_eq_none_iff.mp hl) (segments_ne_nil _ _)
        | some y => rw [hl] at h2; exact h2
    · rw [if_neg hlt]
      have hsp := San.step_spec s cur inq last c hs hok hlt
      cases hstep : s.step c with
      | none =>
        simp only [Option.bind_none]
        constructor
        · intro h; cases h
        · rintro ⟨h1, _⟩
          obtain ⟨g, hg, hbad⟩ := segments_bad _ (quoteTags (if c = '"' then (if inq then last == '\\' else true) else inq) c cs) (hsp.2 hstep)
          exact absurd (h1 g hg) hbad
      | some s' =>
        simp only [Option.bind_some]
        obtain ⟨h1, h2⟩ := hsp.1 s' hstep
        exact ih s' _ _ _ h2 h1

/-- **C30** (exact behaviour): cut the text at every `<`; a redirect address is accepted exactly if
no piece starts with an unquoted `@` or has two of them, and the last piece has an unquoted dot
after its unquoted `@`; the address is the last piece without quotes, angle brackets and unquoted
white space. -/
theorem sanitize_iff (addr r : List Char) :
    sanitizeAddress addr = some r ↔
      (∀ g ∈ segments [] (quoteTags false '\n' addr), AtOk g) ∧
      ∃ g, (segments [] (quoteTags false '\n' addr)).getLast? = some g ∧ HasAtDot g ∧
        r = (g.filter keep).map Prod.fst := by
  unfold sanitizeAddress
  apply San.run_spec
  · refine ⟨rfl, rfl, rfl, by simp, ?_⟩
    simp only [Bool.false_eq_true, false_iff]
    rintro ⟨a, b, c, h⟩
    simp at h
  · intro a b h; simp at h

/-- **C30**: an accepted redirect address consists of characters of the given text, marked as
quoted or unquoted, such that: there is exactly one unquoted `@`, something before it and an
unquoted dot after it; there are no quotes, no angle brackets, and no unquoted white space. -/
theorem redirect_address_wellformed (addr r : List Char) (h : sanitizeAddress addr = some r) :
    ∃ k : List (Char × Bool), r = k.map Prod.fst ∧ k.Sublist (quoteTags false '\n' addr) ∧
      (∃ a b c, k = a ++ ('@', false) :: b ++ ('.', false) :: c ∧ a ≠ []) ∧
      k.count ('@', false) = 1 ∧
      (∀ x ∈ k, x.1 ≠ '"' ∧ x.1 ≠ '<' ∧ x.1 ≠ '>' ∧ (asciiSpace x.1 = true → x.2 = true)) := by
  obtain ⟨h1, g, h2, ⟨a, b, c, h3⟩, rfl⟩ := (sanitize_iff addr r).mp h
  have hok := h1 g (List.mem_of_getLast? h2)
  refine ⟨g.filter keep, rfl, ?_, ⟨a, b, c, h3, ?_⟩, ?_, ?_⟩
  · refine List.filter_sublist.trans ?_
    have : ∀ (t cur : List (Char × Bool)), ∀ g ∈ segments cur t, g.Sublist (cur ++ t) := by
      intro t
      induction t with
      | nil => intro cur g hg; simp [segments] at hg; subst hg; simp
      | cons x xs ih =>
        intro cur g hg
        simp only [segments] at hg
        split at hg
        · rcases List.mem_cons.mp hg with rfl | hg
          · simp
          · have := ih [] g hg
            simp only [List.nil_append] at this
            exact this.trans ((List.sublist_cons_self x xs).trans (List.sublist_append_right _ _))
        · have := ih _ g hg
          simpa using this
    simpa using this (quoteTags false '\n' addr) [] g (List.mem_of_getLast? h2)
  · exact (hok a (b ++ ('.', false) :: c) (by rw [h3]; simp)).1
  · have ha := (hok a (b ++ ('.', false) :: c) (by rw [h3]; simp)).2
    have hb : ('@', false) ∉ b ++ ('.', false) :: c := by
      intro hm
      obtain ⟨p, q, hpq⟩ := List.append_of_mem hm
      have := (hok (a ++ ('@', false) :: p) q (by rw [h3]; simp [hpq])).2
      simp at this
    rw [h3, show a ++ ('@', false) :: b ++ ('.', false) :: c =
      a ++ ('@', false) :: (b ++ ('.', false) :: c) by simp]
    rw [List.count_append, List.count_cons_self, List.count_eq_zero.mpr ha,
      List.count_eq_zero.mpr hb]
  · intro x hx
    have := (List.mem_filter.mp hx).2
    simp only [keep, Bool.and_eq_true, bne_iff_ne, Bool.or_eq_true, Bool.not_eq_true'] at this
    refine ⟨this.1.1.1, this.1.1.2, this.1.2, fun hs => ?_⟩
    rcases this.2 with h | h
    · rw [hs] at h; cases h
    · exact h

example : sanitizeAddress "Joe <joe @example.org>".toList = some "joe@example.org".toList := by decide
example : sanitizeAddress "a@b@example.org".toList = none := by decide

/-- Quotes are dropped and not re-added, so a quoted `@` or blank ends up bare in the address handed
to the host. -/
theorem redirect_address_loses_quotes :
    sanitizeAddress "\"a @b\"@c.d".toList = some "a @b@c.d".toList := by decide

/-! ### C32 -/

theorem insertAddress_perm (m : Mailto) (h : Hdr) (v : List UInt8) :
    (insertAddress m h v).all.Perm
      (if m.all.any (fun w => eqIgnoreCase w v) then m.all else v :: m.all) := by
  unfold insertAddress
  split
  · exact List.Perm.refl _
  · cases h
    · simp only [Mailto.all]
      rw [List.append_assoc]
      exact List.perm_middle
    · simp only [Mailto.all]
      refine List.Perm.trans ?_ List.perm_middle
      apply List.Perm.append_left
      rw [List.append_assoc]
      exact List.perm_middle
    · simp only [Mailto.all]
      rw [← List.append_assoc, ← List.append_assoc]
      refine (List.perm_append_comm (l₂ := [v])).trans ?_
      rw [List.append_assoc]; exact List.Perm.refl _

/-- What is required of the collected recipients. -/
structure Recipients (l : List (List UInt8)) : Prop where
  at_ : ∀ r ∈ l, 64 ∈ r
  distinct : l.Pairwise fun a b => a.map byteLower ≠ b.map byteLower

theorem Recipients.insert {m : Mailto} (hm : Recipients m.all) (h : Hdr) (v : List UInt8)
    (hv : 64 ∈ v) : Recipients (insertAddress m h v).all ∧ (insertAddress m h v).all ≠ [] := by
  have hp := insertAddress_perm m h v
  split at hp
  · rename_i hany
    refine ⟨⟨fun r hr => hm.at_ r (hp.mem_iff.mp hr), (hp.pairwise_iff ?_).mpr hm.distinct⟩, ?_⟩
    · intro a b hab hba; exact hab hba.symm
    · intro he
      rw [he] at hp
      rw [hp.nil_eq.symm] at hany
      simp at hany
  · rename_i hany
    have hnot : ∀ w ∈ m.all, w.map byteLower ≠ v.map byteLower := by
      intro w hw he
      apply hany
      rw [List.any_eq_true]
      exact ⟨w, hw, by simp [eqIgnoreCase, he]⟩
    refine ⟨⟨fun r hr => ?_, (hp.pairwise_iff ?_).mpr ?_⟩, ?_⟩
    · rcases List.mem_cons.mp (hp.mem_iff.mp hr) with rfl | h
      · exact hv
      · exact hm.at_ r h
    · intro a b hab hba; exact hab hba.symm
    · rw [List.pairwise_cons]
      exact ⟨fun w hw he => hnot w hw he.symm, hm.distinct⟩
    · intro he
      rw [he] at hp
      exact absurd hp.nil_eq (by simp)

/-- Invariant of the scanner. -/
structure MS.Inv (s : MS) : Prop where
  recip : Recipients s.params.all
  some_ : s.hasAddresses = true → s.params.all ≠ []
  buf : ∀ h, s.state = .address h true → 64 ∈ s.buf

theorem insert_nonempty {m : Mailto} (h : Hdr) (v : List UInt8) (hm : m.all ≠ []) :
    (insertAddress m h v).all ≠ [] := by
  intro he
  have hp := insertAddress_perm m h v
  rw [he] at hp
  split at hp
  · exact hm hp.nil_eq.symm
  · exact absurd hp.nil_eq (by simp)

theorem MS.flushAddr_inv (x : MExt) (s s' : MS) (h : Hdr) (hs : s.Inv)
    (hst : s.state = .address h true) (he : s.flushAddr x h = some s') :
    Recipients s'.params.all ∧ s'.params.all ≠ [] ∧ s'.buf = [] ∧
      s'.hasAddresses = s.hasAddresses := by
  unfold MS.flushAddr at he
  split at he
  · cases he
    obtain ⟨h1, h2⟩ := hs.recip.insert h s.buf (hs.buf h hst)
    exact ⟨h1, h2, rfl, rfl⟩
  · cases he

theorem store_all (m : Mailto) (p : Param) (v : List UInt8) : (m.store p v).all = m.all := by
  cases p <;> rfl

theorem MS.decoded_inv (x : MExt) (s s' : MS) (ch : UInt8) (hs : s.Inv)
    (he : s.decoded x ch = some s') : s'.Inv := by
  unfold MS.decoded at he
  split at he
  · rename_i h hasAt hst
    split at he
    · split at he
      · rename_i hat
        subst hat
        obtain ⟨t, ht, rfl⟩ := Option.map_eq_some_iff.mp he
        obtain ⟨h1, h2, h3, h4⟩ := MS.flushAddr_inv x s t h hs hst ht
        exact ⟨h1, fun _ => h2, fun h' hh => by cases hh⟩
      · cases he
    · split at he
      · rename_i hch
        split at he
        · cases he
          refine ⟨hs.recip, hs.some_, fun _ _ => ?_⟩
          simp [hch]
        · cases he
      · cases he
        refine ⟨hs.recip, hs.some_, fun h' hh => ?_⟩
        have := hs.buf h' hh
        simp [this]
  · cases he
    refine ⟨hs.recip, hs.some_, fun h' hh => ?_⟩
    have := hs.buf h' hh
    simp [this]

theorem MS.push_inv (s : MS) (ch : UInt8) (hs : s.Inv) : ({ s with buf := s.buf ++ [ch] } : MS).Inv :=
  ⟨hs.recip, hs.some_, fun h hh => by have := hs.buf h hh; simp [this]⟩

theorem MS.plain_inv (x : MExt) (s s' : MS) (ch : UInt8) (hs : s.Inv)
    (he : s.plain x ch = some s') : s'.Inv := by
  unfold MS.plain at he
  split at he
  · split at he
    · rename_i h hst
      obtain ⟨t, ht, rfl⟩ := Option.map_eq_some_iff.mp he
      obtain ⟨h1, h2, h3, h4⟩ := MS.flushAddr_inv x s t h hs hst ht
      exact ⟨h1, fun _ => h2, fun h' hh => by cases hh⟩
    · cases he; exact MS.push_inv s ch hs
    · cases he
  split at he
  · split at he
    · rename_i h hasAt hst
      split at he
      · rename_i hcond
        split at he
        · rename_i hne
          obtain ⟨t, ht, rfl⟩ := Option.map_eq_some_iff.mp he
          have hat : hasAt = true := by
            rcases hcond with h | h
            · exact h
            · exact absurd h hne
          subst hat
          obtain ⟨h1, h2, h3, h4⟩ := MS.flushAddr_inv x s t h hs hst ht
          exact ⟨h1, fun _ => h2, fun h' hh => by cases hh⟩
        · cases he
          exact ⟨hs.recip, hs.some_, fun h' hh => by cases hh⟩
      · cases he
    · cases he; exact MS.push_inv s ch hs
    · cases he
  split at he
  · rename_i hch
    split at he
    · split at he
      · cases he
        exact ⟨hs.recip, hs.some_, fun _ _ => by simp [hch]⟩
      · cases he
    · cases he
    · cases he; exact MS.push_inv s ch hs
  split at he
  · split at he
    · split at he
      · split at he
        · cases he
          refine ⟨hs.recip, hs.some_, fun h' hh => ?_⟩
          simp only at hh
          split at hh <;> cases hh
        · cases he
      · cases he
    · cases he; exact MS.push_inv s ch hs
    · cases he
  split at he
  · split at he
    · rename_i h hst
      split at he
      · obtain ⟨t, ht, rfl⟩ := Option.map_eq_some_iff.mp he
        obtain ⟨h1, h2, h3, h4⟩ := MS.flushAddr_inv x s t h hs hst ht
        exact ⟨h1, fun _ => h2, fun h' hh => by cases hh⟩
      · cases he
        exact ⟨hs.recip, hs.some_, fun h' hh => by cases hh⟩
    · split at he
      · split at he
        · cases he
          refine ⟨?_, ?_, fun h' hh => by cases hh⟩
          · simp only [store_all]; exact hs.recip
          · simp only [store_all]; exact hs.some_
        · cases he
      · cases he
        exact ⟨hs.recip, hs.some_, fun h' hh => by cases hh⟩
    · cases he
  split at he
  · split at he
    · cases he; exact MS.push_inv s ch hs
    · cases he
  · split at he
    · cases he; exact hs
    · cases he; exact MS.push_inv s ch hs

theorem MS.run_inv (x : MExt) (s s' : MS) (uri : List UInt8) (hs : s.Inv)
    (he : s.run x uri = some s') : s'.Inv := by
  induction s, uri using MS.run.induct generalizing s' with
  | case1 s => simp [MS.run] at he; subst he; exact hs
  | case2 s => simp [MS.run] at he
  | case3 s ch h => simp [MS.run, h] at he; exact MS.plain_inv x s s' ch hs he
  | case4 s c1 => simp [MS.run] at he
  | case5 s ch c1 h ih =>
    rw [MS.run, if_neg h] at he
    obtain ⟨t, ht, he⟩ := Option.bind_eq_some_iff.mp he
    exact ih t s' (MS.plain_inv x s t ch hs ht) he
  | case6 s c1 c2 cs a b ha hb ih =>
    rw [MS.run, if_pos rfl, ha, hb] at he
    obtain ⟨t, ht, he⟩ := Option.bind_eq_some_iff.mp he
    exact ih t s' (MS.decoded_inv x s t _ hs ht) he
  | case7 s c1 c2 cs h =>
    rw [MS.run, if_pos rfl] at he
    split at he
    · rename_i a b ha hb
      exact absurd hb (h a b ha)
    · cases he
  | case8 s ch c1 c2 cs h ih =>
    rw [MS.run, if_neg h] at he
    obtain ⟨t, ht, he⟩ := Option.bind_eq_some_iff.mp he
    exact ih t s' (MS.plain_inv x s t ch hs ht) he

/-- **C32**: an accepted mailto URI has at least one recipient; every collected recipient contains
an `@`; no two recipients (across To, Cc and Bcc) are equal ignoring ASCII case. -/
theorem mailto_recipients (x : MExt) (uri : List UInt8) (m : Mailto)
    (h : parseMailto x uri = some m) :
    m.to_ ++ m.cc ++ m.bcc ≠ [] ∧ (∀ r ∈ m.to_ ++ m.cc ++ m.bcc, 64 ∈ r) ∧
      (m.to_ ++ m.cc ++ m.bcc).Pairwise fun a b => a.map byteLower ≠ b.map byteLower := by
  rw [List.append_assoc]
  show m.all ≠ [] ∧ (∀ r ∈ m.all, 64 ∈ r) ∧ m.all.Pairwise _
  suffices h : Recipients m.all ∧ m.all ≠ [] from ⟨h.2, h.1.at_, h.1.distinct⟩
  obtain ⟨s, hs, hf⟩ := Option.bind_eq_some_iff.mp h
  have hinv : s.Inv := by
    refine MS.run_inv x {} s uri ⟨⟨?_, ?_⟩, ?_, ?_⟩ hs
    · intro r hr; simp [Mailto.all] at hr
    · simp [Mailto.all]
    · intro h; cases h
    · intro h hh; cases hh
  unfold MS.finish at hf
  obtain ⟨t, ht, hf⟩ := Option.bind_eq_some_iff.mp hf
  split at hf
  · rename_i hha
    cases hf
    split at ht
    · split at ht
      · split at ht
        · rename_i h' hst
          cases ht
          exact hinv.recip.insert h' s.buf (hinv.buf h' hst)
        · cases ht; exact ⟨hinv.recip, hinv.some_ hha⟩
        · cases ht
          simp only [store_all]
          exact ⟨hinv.recip, hinv.some_ hha⟩
        · cases ht
      · cases ht
    · cases ht; exact ⟨hinv.recip, hinv.some_ hha⟩
  · cases hf

/-- A toy instance of the external functions: everything is valid UTF-8; `t` means To. -/
def demoMExt : MExt := ⟨fun _ => true, fun n => if n = [116] then .addr .to else .other n⟩

-- "a@b,A@B?t=c@d" : the second address repeats the first.
example : parseMailto demoMExt [97, 64, 98, 44, 65, 64, 66, 63, 116, 61, 99, 64, 100] =
    some { to_ := [[97, 64, 98], [99, 64, 100]] } := by decide

/-- "?t=a@b&s=x" (recipients only in a `to=` field that is followed by another field) is rejected,
although "?s=x&t=a@b" is accepted: the `&` branch does not record that an address was seen. -/
theorem mailto_to_field_rejected :
    parseMailto demoMExt [63, 116, 61, 97, 64, 98, 38, 115, 61, 120] = none ∧
    parseMailto demoMExt [63, 115, 61, 120, 38, 116, 61, 97, 64, 98] =
      some { to_ := [[97, 64, 98]], headers := [([115], [120])] } := by decide

/-! ### C42 -/

/-- Reading a quoted string after its opening quote: content and what follows the closing quote. -/
def readQuoted : List Char → Option (List Char × List Char)
  | [] => none
  | '"' :: rest => some ([], rest)
  | '\\' :: c :: rest => (readQuoted rest).map fun r => (c :: r.1, r.2)
  | ['\\'] => none
  | c :: rest => (readQuoted rest).map fun r => (c :: r.1, r.2)

theorem readQuoted_escaped (name rest : List Char) :
    readQuoted (setUserFullName name ++ '"' :: rest) = some (name, rest) := by
  induction name with
  | nil => rfl
  | cons c cs ih =>
    unfold setUserFullName at ih ⊢
    rw [List.flatMap_cons, List.append_assoc]
    by_cases h : c = '"' ∨ c = '\\'
    · rw [if_pos h]
      show readQuoted ('\\' :: c :: _) = _
      rw [readQuoted]
      show (readQuoted (_ ++ '"' :: rest)).map _ = _
      rw [ih]; rfl
    · rw [if_neg h]
      show readQuoted (c :: _) = _
      rw [readQuoted]
      · show (readQuoted (_ ++ '"' :: rest)).map _ = _
        rw [ih]; rfl
      · intro hc; exact h (Or.inl hc)
      · intro c' r hc hcc; exact h (Or.inr hc)
      · intro hc; exact absurd hc (fun hc => h (Or.inr hc))

/-- **C42**: for every configured full name and address the From field is a quoted string that
denotes exactly the full name, followed by the address in angle brackets (or just the address if
there is no full name). -/
theorem from_field_quoted (name address : List Char) :
    (name ≠ [] → ∃ rest, userFromField (setUserFullName name) address = '"' :: rest ∧
      readQuoted rest = some (name, " <".toList ++ address ++ ">".toList)) ∧
    (name = [] → userFromField (setUserFullName name) address = address) := by
  constructor
  · intro hne
    have hne' : setUserFullName name ≠ [] := by
      intro he
      unfold setUserFullName at he
      rw [List.flatMap_eq_nil_iff] at he
      cases name with
      | nil => exact hne rfl
      | cons c cs =>
        have := he c (by simp)
        split at this <;> cases this
    unfold userFromField
    rw [if_pos hne']
    refine ⟨setUserFullName name ++ '"' :: (" <".toList ++ address ++ ">".toList), by simp, ?_⟩
    exact readQuoted_escaped _ _
  · rintro rfl; rfl

example : userFromField (setUserFullName "J \"X\"".toList) "j@x".toList =
    "\"J \\\"X\\\"\" <j@x>".toList := by decide

end Sieve.Address
