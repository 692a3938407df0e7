import Verif.Prelude
import Mathlib.Data.List.Perm.Basic
import Mathlib.Data.List.Perm.Subperm
import Verif.MimeProps
import Verif.SetProps
/-
C26 – C29: header editing and header selection.
-/
namespace Sieve.Mime
open Sieve Sieve.SetVar

/-! ### C26: `remove_crlf` -/

/-- src/runtime/actions/action_editheader.rs:140-154 `remove_crlf`; `acc` is `header_value`. -/
def removeCrlfGo (max : Nat) : List Char → List Char → List Char
  | acc, [] => acc
  | acc, c :: cs =>
    if c = '\n' ∨ c = '\r' then removeCrlfGo max acc cs
    else if byteLen acc + c.utf8Size ≤ max then removeCrlfGo max (acc ++ [c]) cs
    else acc

/-- `str::remove_crlf(max)`. -/
def removeCrlf (max : Nat) (s : List Char) : List Char := removeCrlfGo max [] s

theorem removeCrlfGo_spec (max : Nat) (acc cs : List Char) :
    removeCrlfGo max acc cs =
      truncGo max acc (cs.filter fun c => !(c == '\n' || c == '\r')) := by
  induction cs generalizing acc with
  | nil => rfl
  | cons c cs ih =>
    simp only [removeCrlfGo]
    by_cases hc : c = '\n' ∨ c = '\r'
    · rw [if_pos hc, ih, List.filter_cons_of_neg (by simp; tauto)]
    · rw [if_neg hc, List.filter_cons_of_pos (by simp; tauto)]
      simp only [truncGo]
      by_cases h : byteLen acc + c.utf8Size ≤ max
      · rw [if_pos h, if_pos (by omega), ih]
      · rw [if_neg h, if_neg (by omega)]

/-- **C26**: an inserted header value contains no CR or LF, is at most `max_header_size` bytes and
is the longest fitting whole-character prefix of the given value with CR and LF removed. -/
theorem header_value_clean (max : Nat) (s : List Char) :
    '\n' ∉ removeCrlf max s ∧ '\r' ∉ removeCrlf max s ∧ byteLen (removeCrlf max s) ≤ max ∧
      LongestPrefix max (s.filter fun c => !(c == '\n' || c == '\r')) (removeCrlf max s) := by
  have h := truncGo_spec max [] (s.filter fun c => !(c == '\n' || c == '\r')) (by simp)
  rw [← removeCrlfGo_spec] at h
  have hsub : ∀ c ∈ removeCrlf max s, c ∈ s.filter fun c => !(c == '\n' || c == '\r') :=
    fun c hc => h.1.subset hc
  refine ⟨fun hc => ?_, fun hc => ?_, h.2.1, h⟩
  · have := hsub _ hc; simp at this
  · have := hsub _ hc; simp at this

example : removeCrlf 6 "a\r\nBcc: x".toList = "aBcc: ".toList := by decide

/-! ### C28: header selection -/

variable {N V : Type} [DecidableEq N]

/-- Number of headers called `name`. -/
def occurrences (name : N) (hs : List (Header N V)) : Nat := hs.countP fun h => h.name = name

/-- The header at position `pos` is called `name` and is selected by the index argument: any
occurrence, the `n`-th from the top, or (negative) the `n`-th from the bottom. -/
def Selected (hs : List (Header N V)) (index : Option Int) (name : N) (pos : Nat) : Prop :=
  (∃ h, hs[pos]? = some h ∧ h.name = name) ∧
  match index with
  | none => True
  | some i =>
    if 0 ≤ i then ((occurrences name (hs.take (pos + 1)) : Nat) : Int) = i
    else ((occurrences name (hs.drop pos) : Nat) : Int) = -i

theorem scan_iff (name : N) (i : Int) (L : List (Header N V × Nat)) (c : Int)
    (x : Header N V × Nat) :
    scan name i L c = some x ↔ ∃ j, L[j]? = some x ∧ x.1.name = name ∧
      c + ((L.take (j + 1)).countP fun y => y.1.name = name) = i := by
  induction L generalizing c with
  | nil => simp [scan]
  | cons y ys ih =>
    obtain ⟨h, pos⟩ := y
    simp only [scan]
    by_cases hn : h.name = name
    · rw [if_pos hn]
      by_cases hc : c + 1 = i
      · rw [if_pos hc]
        constructor
        · intro hx
          cases hx
          exact ⟨0, rfl, hn, by simp [hn]; exact hc⟩
        · rintro ⟨j, hj, hxn, hcount⟩
          cases j with
          | zero => simpa using hj
          | succ j =>
            exfalso
            simp only [List.getElem?_cons_succ] at hj
            rw [List.take_succ_cons, List.countP_cons_of_pos (by simpa using hn)] at hcount
            have : 0 < (ys.take (j + 1)).countP fun y => y.1.name = name := by
              rw [List.countP_pos_iff]
              refine ⟨x, ?_, by simpa using hxn⟩
              rw [List.mem_take_iff_getElem]
              obtain ⟨hl, he⟩ := List.getElem?_eq_some_iff.mp hj
              exact ⟨j, by omega, he⟩
            push_cast at hcount
            omega
      · rw [if_neg hc, ih]
        constructor
        · rintro ⟨j, hj, hxn, hcount⟩
          refine ⟨j + 1, by simpa using hj, hxn, ?_⟩
          rw [List.take_succ_cons, List.countP_cons_of_pos (by simpa using hn)]
          push_cast; omega
        · rintro ⟨j, hj, hxn, hcount⟩
          cases j with
          | zero =>
            simp [hn] at hcount; omega
          | succ j =>
            refine ⟨j, by simpa using hj, hxn, ?_⟩
            rw [List.take_succ_cons, List.countP_cons_of_pos (by simpa using hn)] at hcount
            push_cast at hcount; omega
    · rw [if_neg hn, ih]
      constructor
      · rintro ⟨j, hj, hxn, hcount⟩
        refine ⟨j + 1, by simpa using hj, hxn, ?_⟩
        rw [List.take_succ_cons, List.countP_cons_of_neg (by simpa using hn)]
        exact hcount
      · rintro ⟨j, hj, hxn, hcount⟩
        cases j with
        | zero =>
          exfalso
          simp only [List.getElem?_cons_zero, Option.some.injEq] at hj
          subst hj; exact hn hxn
        | succ j =>
          refine ⟨j, by simpa using hj, hxn, ?_⟩
          rwa [List.take_succ_cons, List.countP_cons_of_neg (by simpa using hn)] at hcount

theorem countP_zipIdx (name : N) (hs : List (Header N V)) (k : Nat) :
    ((hs.zipIdx k).countP fun y => y.1.name = name) = occurrences name hs := by
  unfold occurrences
  induction hs generalizing k with
  | nil => rfl
  | cons h hs ih => simp only [List.zipIdx_cons, List.countP_cons, ih]

omit [DecidableEq N] in
theorem take_zipIdx (hs : List (Header N V)) (n k : Nat) :
    (hs.zipIdx k).take n = (hs.take n).zipIdx k := by
  induction hs generalizing n k with
  | nil => simp
  | cons h hs ih =>
    cases n with
    | zero => simp
    | succ n => simp [ih]

omit [DecidableEq N] in
theorem drop_zipIdx (hs : List (Header N V)) (n k : Nat) :
    (hs.zipIdx k).drop n = (hs.drop n).zipIdx (k + n) := by
  induction hs generalizing n k with
  | nil => simp
  | cons h hs ih =>
    cases n with
    | zero => simp
    | succ n => simp [ih]; congr 1; omega

omit [DecidableEq N] in
theorem getElem?_zipIdx0 (hs : List (Header N V)) (j : Nat) (h : Header N V) (pos : Nat) :
    hs.zipIdx[j]? = some (h, pos) ↔ j = pos ∧ hs[pos]? = some h := by
  rw [List.getElem?_zipIdx, Option.map_eq_some_iff]
  constructor
  · rintro ⟨a, ha, he⟩
    simp only [Nat.zero_add, Prod.mk.injEq] at he
    obtain ⟨rfl, rfl⟩ := he
    exact ⟨rfl, ha⟩
  · rintro ⟨rfl, ha⟩
    exact ⟨h, ha, by simp⟩

/-- **C28**: a header test or deleteheader looks at a header of a part exactly if it has the given
name and is selected by `:index`/`:last`. -/
theorem select_iff (hs : List (Header N V)) (index : Option Int) (name : N) (h : Header N V)
    (pos : Nat) :
    (h, pos) ∈ selectHeaders hs index name ↔ hs[pos]? = some h ∧ Selected hs index name pos := by
  unfold selectHeaders Selected
  cases index with
  | none =>
    simp only [List.mem_filter, decide_eq_true_eq, and_true]
    rw [List.mem_iff_getElem?]
    constructor
    · rintro ⟨⟨j, hj⟩, hn⟩
      obtain ⟨rfl, hp⟩ := (getElem?_zipIdx0 ..).mp hj
      exact ⟨hp, h, hp, hn⟩
    · rintro ⟨hp, h', hp', hn⟩
      rw [hp] at hp'; cases hp'
      exact ⟨⟨pos, (getElem?_zipIdx0 ..).mpr ⟨rfl, hp⟩⟩, hn⟩
  | some i =>
    simp only
    by_cases hi : 0 ≤ i
    · simp only [if_pos hi, Option.mem_toList]
      rw [scan_iff]
      constructor
      · rintro ⟨j, hj, hn, hc⟩
        obtain ⟨rfl, hp⟩ := (getElem?_zipIdx0 ..).mp hj
        rw [take_zipIdx, countP_zipIdx] at hc
        exact ⟨hp, ⟨h, hp, hn⟩, by omega⟩
      · rintro ⟨hp, ⟨h', hp', hn⟩, hc⟩
        rw [hp] at hp'; cases hp'
        refine ⟨pos, (getElem?_zipIdx0 ..).mpr ⟨rfl, hp⟩, hn, ?_⟩
        rw [take_zipIdx, countP_zipIdx]; omega
    · simp only [if_neg hi, Option.mem_toList]
      rw [scan_iff]
      have hrev : ∀ j, j < hs.length → ∀ k, k = hs.length - 1 - j →
          ((hs.zipIdx.reverse.take (j + 1)).countP fun y => y.1.name = name) =
            occurrences name (hs.drop k) := by
        intro j hj k hk
        subst hk
        rw [List.take_reverse, List.countP_reverse, drop_zipIdx, countP_zipIdx]
        congr 2
        simp; omega
      constructor
      · rintro ⟨j, hj, hn, hc⟩
        have hjl : j < hs.length := by
          have := (List.getElem?_eq_some_iff.mp hj).1; simpa using this
        rw [List.getElem?_reverse (by simpa using hjl)] at hj
        obtain ⟨he, hp⟩ := (getElem?_zipIdx0 ..).mp hj
        simp only [List.length_zipIdx] at he
        rw [hrev j hjl pos he.symm] at hc
        exact ⟨hp, ⟨h, hp, hn⟩, by omega⟩
      · rintro ⟨hp, ⟨h', hp', hn⟩, hc⟩
        rw [hp] at hp'; cases hp'
        have hpl := (List.getElem?_eq_some_iff.mp hp).1
        refine ⟨hs.length - 1 - pos, ?_, hn, ?_⟩
        · rw [List.getElem?_reverse (by simp; omega)]
          exact (getElem?_zipIdx0 ..).mpr ⟨by simp; omega, hp⟩
        · rw [hrev _ (by omega) pos (by omega)]; omega

/-- **C28** (order): the selected headers are visited in ascending position. -/
theorem select_ascending (hs : List (Header N V)) (index : Option Int) (name : N) :
    (selectHeaders hs index name).Pairwise fun a b => a.2 < b.2 := by
  unfold selectHeaders
  cases index with
  | none =>
    apply List.Pairwise.filter
    have : ∀ k, (hs.zipIdx k).Pairwise fun a b => a.2 < b.2 := by
      intro k
      induction hs generalizing k with
      | nil => exact List.Pairwise.nil
      | cons h hs ih =>
        rw [List.zipIdx_cons, List.pairwise_cons]
        refine ⟨fun b hb => ?_, ih _⟩
        have := List.le_snd_of_mem_zipIdx hb
        simp only; omega
    exact this 0
  | some i =>
    simp only
    split
    · cases scan name i hs.zipIdx 0 <;> simp
    · cases scan name (-i) hs.zipIdx.reverse 0 <;> simp

/-- Three headers, two of them called 1. -/
def demoHeaders : List (Header Nat Char) := [⟨1, 'a'⟩, ⟨2, 'b'⟩, ⟨1, 'c'⟩]

example : selectHeaders demoHeaders (some 2) 1 = [(⟨1, 'c'⟩, 2)] := by decide
example : selectHeaders demoHeaders (some (-2)) 1 = [(⟨1, 'a'⟩, 0)] := by decide
example : Selected demoHeaders (some (-2)) 1 0 :=
  ⟨⟨⟨1, 'a'⟩, rfl, rfl⟩, by
    show if (0 : Int) ≤ -2 then _ else _
    rw [if_neg (by decide)]; decide⟩

/-! ### C29: deleteheader -/

/-- The list without the elements at the positions satisfying `del`. -/
def without (del : Nat → Prop) [DecidablePred del] (hs : List (Header N V)) : List (Header N V) :=
  (hs.zipIdx.filter fun x => ¬ del x.2).map Prod.fst

/-- The same by recursion. -/
def dropAt (del : Nat → Prop) [DecidablePred del] : List (Header N V) → Nat → List (Header N V)
  | [], _ => []
  | h :: hs, k => if del k then dropAt del hs (k + 1) else h :: dropAt del hs (k + 1)

omit [DecidableEq N] in
theorem without_eq (del : Nat → Prop) [DecidablePred del] (hs : List (Header N V)) :
    without del hs = dropAt del hs 0 := by
  have : ∀ k, ((hs.zipIdx k).filter fun x => ¬ del x.2).map Prod.fst = dropAt del hs k := by
    induction hs with
    | nil => intro k; rfl
    | cons h hs ih =>
      intro k
      simp only [List.zipIdx_cons, dropAt]
      by_cases hd : del k
      · rw [List.filter_cons_of_neg (by simpa using hd), if_pos hd, ih]
      · rw [List.filter_cons_of_pos (by simpa using hd), if_neg hd, List.map_cons, ih]
  exact this 0

omit [DecidableEq N] in
theorem dropAt_congr (d1 d2 : Nat → Prop) [DecidablePred d1] [DecidablePred d2]
    (hs : List (Header N V)) (k : Nat) (h : ∀ j, k ≤ j → j < k + hs.length → (d1 j ↔ d2 j)) :
    dropAt d1 hs k = dropAt d2 hs k := by
  induction hs generalizing k with
  | nil => rfl
  | cons x xs ih =>
    simp only [dropAt]
    have hk := h k (le_refl _) (by simp)
    rw [ih (k + 1) fun j h1 h2 => h j (by omega) (by simp; omega)]
    by_cases hd : d1 k
    · rw [if_pos hd, if_pos (hk.mp hd)]
    · rw [if_neg hd, if_neg fun h => hd (hk.mpr h)]

omit [DecidableEq N] in
theorem dropAt_none (del : Nat → Prop) [DecidablePred del] (hs : List (Header N V)) (k : Nat)
    (h : ∀ j, ¬ del j) : dropAt del hs k = hs := by
  induction hs generalizing k with
  | nil => rfl
  | cons x xs ih => simp only [dropAt, if_neg (h k), ih]

omit [DecidableEq N] in
theorem dropAt_erase (del : Nat → Prop) [DecidablePred del] (hs : List (Header N V)) (k pos : Nat)
    (hk : k ≤ pos) (hpos : pos < k + hs.length) (hdel : ∀ j, del j → pos < j) :
    pos - k < (dropAt del hs k).length ∧
      (dropAt del hs k).eraseIdx (pos - k) = dropAt (fun j => j = pos ∨ del j) hs k := by
  induction hs generalizing k with
  | nil => simp at hpos; omega
  | cons h hs ih =>
    simp only [dropAt]
    have hnk : ¬ del k := fun hd => by have := hdel k hd; omega
    rw [if_neg hnk]
    by_cases he : k = pos
    · subst he
      rw [if_pos (Or.inl rfl)]
      simp only [Nat.sub_self, List.length_cons, List.eraseIdx_cons_zero]
      refine ⟨by omega, ?_⟩
      apply dropAt_congr
      intro j h1 _
      constructor
      · exact Or.inr
      · rintro (rfl | h)
        · omega
        · exact h
    · rw [if_neg (by rintro (h | h); exacts [he h, hnk h])]
      obtain ⟨i1, i2⟩ := ih (k + 1) (by omega) (by simp at hpos; omega)
      have e : pos - k = (pos - (k + 1)) + 1 := by omega
      rw [e, List.eraseIdx_cons_succ, i2]
      exact ⟨by simp; omega, rfl⟩

omit [DecidableEq N] in
theorem removeAll_spec (parts : List (Part N V)) (l : List (Nat × Nat))
    (hval : ∀ x ∈ l, ∃ p, parts[x.1]? = some p ∧ x.2 < p.headers.length)
    (hasc : l.Pairwise fun a b => a.1 = b.1 → a.2 < b.2) :
    ∃ parts', removeAll parts l = some parts' ∧ parts'.length = parts.length ∧
      ∀ (id : Nat) (p : Part N V), parts[id]? = some p →
        parts'[id]? = some ⟨without (fun pos => (id, pos) ∈ l) p.headers, p.body⟩ := by
  induction l with
  | nil =>
    refine ⟨parts, rfl, rfl, fun id p hp => ?_⟩
    rw [hp, without_eq, dropAt_none]
    simp
  | cons x rest ih =>
    obtain ⟨id0, pos0⟩ := x
    rw [List.pairwise_cons] at hasc
    obtain ⟨P, hP, hlen, hspec⟩ := ih (fun y hy => hval y (List.mem_cons_of_mem _ hy)) hasc.2
    obtain ⟨p0, hp0, hpos0⟩ := hval (id0, pos0) (List.mem_cons_self ..)
    simp only at hp0 hpos0
    have hP0 := hspec id0 p0 hp0
    have her := dropAt_erase (fun pos => (id0, pos) ∈ rest) p0.headers 0 pos0 (by omega) (by omega)
      (fun j hj => hasc.1 (id0, j) hj rfl)
    simp only [Nat.sub_zero] at her
    simp only [removeAll, hP, Option.bind_eq_bind, Option.bind_some, removeHeader, hP0]
    rw [without_eq, if_pos her.1]
    refine ⟨_, rfl, by simp [hlen], fun id p hp => ?_⟩
    by_cases hid : id = id0
    · subst hid
      rw [hp0] at hp
      cases hp
      have hlt := (List.getElem?_eq_some_iff.mp hp0).1
      rw [List.getElem?_set_self (by omega), her.2, without_eq]
      congr 2
      apply dropAt_congr
      intro j _ _
      simp
    · rw [List.getElem?_set_ne (Ne.symm hid), hspec id p hp, without_eq, without_eq]
      congr 2
      apply dropAt_congr
      intro j _ _
      simp [hid]

open Classical in
/-- deleteheader on a list of visited parts without repetition. -/
theorem delete_visited (prot : N → Bool) (parts : List (Part N V)) (part : Nat) (name : N)
    (index : Option Int) (anychild : Bool) (mv : Header N V → Bool) (fuel : Nat) (ids : List Nat)
    (hv : visit parts anychild fuel [part] [] = some ids) (hnd : ids.Nodup) :
    ∃ parts', deleteHeader prot parts part name index anychild mv fuel = some parts' ∧
      parts'.length = parts.length ∧
      ∀ (id : Nat) (p : Part N V), parts[id]? = some p →
        parts'[id]? = some ⟨without (fun pos => prot name = false ∧ id ∈ ids ∧
          Selected p.headers index name pos ∧ ∃ h, p.headers[pos]? = some h ∧ mv h = true)
          p.headers, p.body⟩ := by
  unfold deleteHeader
  by_cases hprot : prot name = true
  · rw [if_pos hprot]
    refine ⟨parts, rfl, rfl, fun id p hp => ?_⟩
    rw [hp, without_eq, dropAt_none]
    intro j hj
    rw [hprot] at hj; simp at hj
  · rw [if_neg hprot]
    have hpf : prot name = false := by simpa using hprot
    simp only [findHeaders, hv, Option.map_some, Option.bind_eq_bind, Option.bind_some]
    set found : List (Header N V × Nat × Nat) := ids.flatMap fun id =>
      match parts[id]? with
      | none => []
      | some p => [name].flatMap fun name =>
          (selectHeaders p.headers index name).map fun h => (h.1, id, h.2) with hfound
    have hmem : ∀ h id pos, (h, id, pos) ∈ found ↔ id ∈ ids ∧ ∃ p, parts[id]? = some p ∧
        (h, pos) ∈ selectHeaders p.headers index name := by
      intro h id pos
      rw [hfound, List.mem_flatMap]
      constructor
      · rintro ⟨i, hi, hx⟩
        split at hx
        · simp at hx
        · rename_i p hp
          simp only [List.flatMap_cons, List.flatMap_nil, List.append_nil, List.mem_map,
            Prod.mk.injEq] at hx
          obtain ⟨y, hy, rfl, rfl, rfl⟩ := hx
          exact ⟨hi, p, hp, hy⟩
      · rintro ⟨hi, p, hp, hy⟩
        refine ⟨id, hi, ?_⟩
        rw [hp]
        simp only [List.flatMap_cons, List.flatMap_nil, List.append_nil, List.mem_map,
          Prod.mk.injEq]
        exact ⟨(h, pos), hy, by simp⟩
    have hmem2 : ∀ id pos, (id, pos) ∈ (found.filter fun h => mv h.1).map (fun h => (h.2.1, h.2.2)) ↔
        id ∈ ids ∧ ∃ p, parts[id]? = some p ∧ Selected p.headers index name pos ∧
          ∃ h, p.headers[pos]? = some h ∧ mv h = true := by
      intro id pos
      rw [List.mem_map]
      constructor
      · rintro ⟨⟨h, i, q⟩, hx, he⟩
        simp only [Prod.mk.injEq] at he
        obtain ⟨rfl, rfl⟩ := he
        rw [List.mem_filter] at hx
        obtain ⟨h1, p, h2, h3⟩ := (hmem _ _ _).mp hx.1
        obtain ⟨h4, h5⟩ := (select_iff ..).mp h3
        exact ⟨h1, p, h2, h5, h, h4, hx.2⟩
      · rintro ⟨h1, p, h2, h3, h, h4, h5⟩
        refine ⟨(h, id, pos), ?_, rfl⟩
        rw [List.mem_filter]
        exact ⟨(hmem _ _ _).mpr ⟨h1, p, h2, (select_iff ..).mpr ⟨h4, h3⟩⟩, h5⟩
    have hasc : ((found.filter fun h => mv h.1).map fun h => (h.2.1, h.2.2)).Pairwise
        fun a b => a.1 = b.1 → a.2 < b.2 := by
      rw [List.pairwise_map]
      apply List.Pairwise.filter
      rw [hfound, List.pairwise_flatMap]
      refine ⟨fun i hi => ?_, hnd.imp ?_⟩
      · split
        · exact List.Pairwise.nil
        · simp only [List.flatMap_cons, List.flatMap_nil, List.append_nil]
          rw [List.pairwise_map]
          exact (select_ascending ..).imp fun {a b} (h : a.2 < b.2) (_ : i = i) => h
      · intro a b hab x hx y hy
        have hid : ∀ (c : Nat), ∀ z ∈ (match parts[c]? with
            | none => ([] : List (Header N V × Nat × Nat))
            | some p => [name].flatMap fun name =>
                (selectHeaders p.headers index name).map fun (h : Header N V × Nat) => (h.1, c, h.2)), z.2.1 = c := by
          intro c z hz
          split at hz
          · simp at hz
          · simp only [List.flatMap_cons, List.flatMap_nil, List.append_nil, List.mem_map] at hz
            obtain ⟨w, _, rfl⟩ := hz
            rfl
        intro he
        rw [hid a x hx, hid b y hy] at he
        exact absurd he hab
    obtain ⟨parts', h1, h2, h3⟩ := removeAll_spec parts _ (by
      rintro ⟨id, pos⟩ hx
      obtain ⟨_, p, hp, _, h, hh, _⟩ := (hmem2 _ _).mp hx
      exact ⟨p, hp, (List.getElem?_eq_some_iff.mp hh).1⟩) hasc
    · refine ⟨parts', h1, h2, fun id p hp => ?_⟩
      rw [h3 id p hp, without_eq, without_eq]
      congr 2
      apply dropAt_congr
      intro j _ _
      rw [hmem2]
      constructor
      · rintro ⟨a, p', hp', b, c⟩
        rw [hp] at hp'; cases hp'
        exact ⟨hpf, a, b, c⟩
      · rintro ⟨_, a, b, c⟩
        exact ⟨a, p, hp, b, c⟩

open Classical in
/-- **C29**: deleteheader (without `:anychild`) removes from the current part exactly the headers
with the given name, selected position and matching value, keeps the others in order, and leaves
all other parts alone; a protected header name changes nothing. -/
theorem deleteheader_exact (prot : N → Bool) (parts : List (Part N V)) (part : Nat)
    (hpart : part < parts.length) (name : N) (index : Option Int) (mv : Header N V → Bool)
    (fuel : Nat) :
    ∃ parts', deleteHeader prot parts part name index false mv (fuel + 2) = some parts' ∧
      parts'.length = parts.length ∧
      ∀ (id : Nat) (p : Part N V), parts[id]? = some p →
        parts'[id]? = some ⟨without (fun pos => prot name = false ∧ id = part ∧
          Selected p.headers index name pos ∧ ∃ h, p.headers[pos]? = some h ∧ mv h = true)
          p.headers, p.body⟩ := by
  obtain ⟨parts', h1, h2, h3⟩ := delete_visited prot parts part name index false mv (fuel + 2)
    [part] (no_anychild parts part hpart fuel) (by simp)
  refine ⟨parts', h1, h2, fun id p hp => ?_⟩
  rw [h3 id p hp, without_eq, without_eq]
  congr 2
  apply dropAt_congr
  intro j _ _
  simp

open Classical in
/-- **C29** (`:anychild`): the same for every part of the MIME tree below the current part. -/
theorem deleteheader_anychild_exact (prot : N → Bool) (parts : List (Part N V)) (t : Tree)
    (ht : Represents parts t) (hnd : t.preorder.Nodup) (name : N) (index : Option Int)
    (mv : Header N V → Bool) (fuel : Nat) (hfuel : t.preorder.length < fuel) :
    ∃ parts', deleteHeader prot parts t.id name index true mv fuel = some parts' ∧
      parts'.length = parts.length ∧
      ∀ (id : Nat) (p : Part N V), parts[id]? = some p →
        parts'[id]? = some ⟨without (fun pos => prot name = false ∧ id ∈ t.preorder ∧
          Selected p.headers index name pos ∧ ∃ h, p.headers[pos]? = some h ∧ mv h = true)
          p.headers, p.body⟩ :=
  delete_visited prot parts t.id name index true mv fuel _ (anychild_preorder parts t ht fuel hfuel)
    hnd

example : deleteHeader (fun _ => false) [⟨demoHeaders, .other⟩] 0 1 none false
    (fun h => h.value == 'c') 2 = some [⟨[⟨1, 'a'⟩, ⟨2, 'b'⟩], .other⟩] := by decide

/-! ### C27: protected headers -/

/-- One edit of the message by a script. -/
inductive Edit (N V : Type) where
  | add (part : Nat) (nameText : List Char) (value : V) (last : Bool)
  | delete (part : Nat) (name : N) (index : Option Int) (anychild : Bool)
      (matchValue : Header N V → Bool)

/-- The part an edit applies to. -/
def Edit.part : Edit N V → Nat
  | .add p .. => p
  | .delete p .. => p

/-- Execution of one edit. -/
def applyEdit (prot : N → Bool) (alnum : Char → Bool) (parse : List Char → Option N)
    (parts : List (Part N V)) : Edit N V → Option (List (Part N V))
  | .add part nameText value last => addHeader prot alnum parse parts part nameText value last
  | .delete part name index anychild mv =>
    deleteHeader prot parts part name index anychild mv (parts.length + 2)

/-- Execution of a sequence of edits. -/
def applyEdits (prot : N → Bool) (alnum : Char → Bool) (parse : List Char → Option N) :
    List (Part N V) → List (Edit N V) → Option (List (Part N V))
  | parts, [] => some parts
  | parts, e :: es => (applyEdit prot alnum parse parts e).bind fun parts' =>
      applyEdits prot alnum parse parts' es

/-- The parts form trees: from every part, the nested parts are distinct. -/
def TreeShaped (parts : List (Part N V)) : Prop :=
  ∀ id < parts.length, ∃ t : Tree, t.id = id ∧ Represents parts t ∧ t.preorder.Nodup

omit [DecidableEq N] in
theorem represents_lt {parts : List (Part N V)} {t : Tree} (h : Represents parts t) :
    ∀ i ∈ t.preorder, i < parts.length := by
  induction h with
  | leaf hp _ =>
    intro i hi
    simp only [Tree.preorder, Tree.preorder.forest, List.mem_singleton] at hi
    subst hi
    exact (List.getElem?_eq_some_iff.mp hp).1
  | @multi i p ts hp _ _ ih =>
    intro j hj
    simp only [Tree.preorder, List.mem_cons] at hj
    rcases hj with rfl | hj
    · exact (List.getElem?_eq_some_iff.mp hp).1
    · have : ∀ ts : List Tree, (∀ t ∈ ts, ∀ i ∈ t.preorder, i < parts.length) →
          ∀ j ∈ Tree.preorder.forest ts, j < parts.length := by
        intro ts
        induction ts with
        | nil => intro _ j hj; simp [Tree.preorder.forest] at hj
        | cons t ts ih2 =>
          intro h j hj
          simp only [Tree.preorder.forest, List.mem_append] at hj
          rcases hj with hj | hj
          · exact h t (List.mem_cons_self ..) j hj
          · exact ih2 (fun u hu => h u (List.mem_cons_of_mem _ hu)) j hj
      exact this ts ih j hj

theorem nodup_lt_length {l : List Nat} {n : Nat} (h : l.Nodup) (hlt : ∀ x ∈ l, x < n) :
    l.length ≤ n := by
  have : l.Subperm (List.range n) := List.subperm_of_subset h fun x hx => List.mem_range.mpr (hlt x hx)
  simpa using this.length_le

omit [DecidableEq N] in
theorem represents_congr {parts parts' : List (Part N V)}
    (hb : ∀ i : Nat, parts'[i]?.map Part.body = parts[i]?.map Part.body) {t : Tree}
    (h : Represents parts t) : Represents parts' t := by
  induction h with
  | @leaf i p hp hb' =>
    have := hb i
    rw [hp] at this
    obtain ⟨p', hp', he⟩ := Option.map_eq_some_iff.mp (this.trans rfl)
    exact .leaf hp' (he.trans hb')
  | @multi i p ts hp hb' _ ih =>
    have := hb i
    rw [hp] at this
    obtain ⟨p', hp', he⟩ := Option.map_eq_some_iff.mp (this.trans rfl)
    exact .multi hp' (he.trans hb') ih

/-- The protected headers of a part, in order. -/
def protectedOf (prot : N → Bool) (p : Part N V) : List (Header N V) :=
  p.headers.filter fun h => prot h.name

omit [DecidableEq N] in
theorem protected_without (prot : N → Bool) (del : Nat → Prop) [DecidablePred del]
    (hs : List (Header N V)) (k : Nat)
    (h : ∀ (j : Nat) (x : Header N V), hs[j]? = some x → del (k + j) → prot x.name = false) :
    (dropAt del hs k).filter (fun h => prot h.name) = hs.filter fun h => prot h.name := by
  induction hs generalizing k with
  | nil => rfl
  | cons x xs ih =>
    have ih' := ih (k + 1) fun j y hy hd => h (j + 1) y (by simpa using hy) (by
      rw [show k + (j + 1) = k + 1 + j by omega]; exact hd)
    simp only [dropAt]
    split
    · rename_i hd
      rw [ih', List.filter_cons_of_neg]
      have := h 0 x rfl hd
      simp [this]
    · simp only [List.filter_cons, ih']

omit [DecidableEq N] in
theorem getElem?_of_length {parts parts' : List (Part N V)} (hlen : parts'.length = parts.length)
    (h : ∀ (id : Nat) (p : Part N V), parts[id]? = some p →
      ∃ p', parts'[id]? = some p' ∧ p'.body = p.body) :
    ∀ i : Nat, parts'[i]?.map Part.body = parts[i]?.map Part.body := by
  intro i
  cases hp : parts[i]? with
  | none =>
    rw [List.getElem?_eq_none_iff] at hp
    rw [List.getElem?_eq_none (by omega)]
  | some p =>
    obtain ⟨p', h1, h2⟩ := h i p hp
    rw [h1]; simp [h2]

/-- One edit keeps the protected headers. -/
theorem applyEdit_protected (prot : N → Bool) (alnum : Char → Bool) (parse : List Char → Option N)
    (parts : List (Part N V)) (htree : TreeShaped parts) (e : Edit N V)
    (he : e.part < parts.length) :
    ∃ parts', applyEdit prot alnum parse parts e = some parts' ∧
      parts'.length = parts.length ∧
      ∀ (id : Nat) (p : Part N V), parts[id]? = some p → ∃ p', parts'[id]? = some p' ∧
        p'.body = p.body ∧ protectedOf prot p' = protectedOf prot p := by
  classical
  have hid : ∃ parts', some parts = some parts' ∧ parts'.length = parts.length ∧
      ∀ (id : Nat) (p : Part N V), parts[id]? = some p → ∃ p', parts'[id]? = some p' ∧
        p'.body = p.body ∧ protectedOf prot p' = protectedOf prot p :=
    ⟨parts, rfl, rfl, fun id p hp => ⟨p, hp, rfl, rfl⟩⟩
  cases e with
  | add part nameText value last =>
    simp only [Edit.part] at he
    simp only [applyEdit, addHeader]
    split
    · exact hid
    · split
      · exact hid
      · rename_i name _
        split
        · exact hid
        · rename_i hprot
          simp only [insertHeader, List.getElem?_eq_getElem he]
          refine ⟨_, rfl, by simp, fun id p hp => ?_⟩
          by_cases hidp : id = part
          · subst hidp
            rw [List.getElem?_eq_getElem he] at hp
            cases hp
            refine ⟨_, List.getElem?_set_self (by simpa using he), rfl, ?_⟩
            unfold protectedOf
            simp only
            split
            · rw [List.filter_append, List.filter_cons_of_neg (by simpa using hprot)]; simp
            · rw [List.filter_cons_of_neg (by simpa using hprot)]
          · refine ⟨p, ?_, rfl, rfl⟩
            rw [List.getElem?_set_ne (Ne.symm hidp)]; exact hp
  | delete part name index anychild mv =>
    simp only [Edit.part] at he
    simp only [applyEdit]
    have hvis : ∃ ids, visit parts anychild (parts.length + 2) [part] [] = some ids ∧ ids.Nodup := by
      cases anychild with
      | false => exact ⟨_, no_anychild parts part he parts.length, by simp⟩
      | true =>
        obtain ⟨t, rfl, hr, hnd⟩ := htree part he
        have := nodup_lt_length hnd (represents_lt hr)
        exact ⟨_, anychild_preorder parts t hr _ (by omega), hnd⟩
    obtain ⟨ids, hv, hnd⟩ := hvis
    obtain ⟨parts', h1, h2, h3⟩ :=
      delete_visited prot parts part name index anychild mv (parts.length + 2) ids hv hnd
    refine ⟨parts', h1, h2, fun id p hp => ⟨_, h3 id p hp, rfl, ?_⟩⟩
    unfold protectedOf
    simp only
    rw [without_eq]
    apply protected_without
    intro j x hx hd
    simp only [Nat.zero_add] at hd
    obtain ⟨hpf, _, ⟨⟨h, hh, hn⟩, _⟩, _⟩ := hd
    rw [hx] at hh
    cases hh
    rw [hn]; exact hpf

/-- **C27**: any sequence of addheader and deleteheader actions (with any arguments) leaves the
protected headers of every part as they were: same names, same values, same order.  In a message
whose parts form trees no such sequence fails. -/
theorem protected_headers_kept (prot : N → Bool) (alnum : Char → Bool)
    (parse : List Char → Option N) (parts : List (Part N V)) (htree : TreeShaped parts)
    (edits : List (Edit N V)) (he : ∀ e ∈ edits, e.part < parts.length) :
    ∃ parts', applyEdits prot alnum parse parts edits = some parts' ∧
      parts'.map (protectedOf prot) = parts.map (protectedOf prot) := by
  induction edits generalizing parts with
  | nil => exact ⟨parts, rfl, rfl⟩
  | cons e es ih =>
    obtain ⟨parts1, h1, h2, h3⟩ := applyEdit_protected prot alnum parse parts htree e
      (he e (List.mem_cons_self ..))
    have hbody := getElem?_of_length h2 fun i p hp =>
      let ⟨p', a, b, _⟩ := h3 i p hp
      ⟨p', a, b⟩
    have htree1 : TreeShaped parts1 := by
      intro i hi
      obtain ⟨t, ht, hr, hnd⟩ := htree i (by omega)
      exact ⟨t, ht, represents_congr hbody hr, hnd⟩
    obtain ⟨parts', h4, h5⟩ := ih parts1 htree1 fun e he' => by
      rw [h2]; exact he e (List.mem_cons_of_mem _ he')
    refine ⟨parts', by simp only [applyEdits, h1, Option.bind_some, h4], ?_⟩
    rw [h5]
    apply List.ext_getElem?
    intro i
    rw [List.getElem?_map, List.getElem?_map]
    cases hp : parts[i]? with
    | none =>
      rw [List.getElem?_eq_none_iff] at hp
      rw [List.getElem?_eq_none (by omega)]
    | some p =>
      obtain ⟨p', a, _, c⟩ := h3 i p hp
      rw [a]; simp [c]

example : TreeShaped demoParts := by
  intro id hid
  have h : Represents demoParts demoTree := demo_represents
  cases h with
  | multi _ _ hc =>
    have h1 := hc (.node 1 [.node 2 [], .node 3 []]) (by simp)
    match id, hid with
    | 0, _ => exact ⟨demoTree, rfl, demo_represents, by decide⟩
    | 1, _ => exact ⟨_, rfl, h1, by decide⟩
    | 2, _ => exact ⟨.node 2 [], rfl, .leaf (p := ⟨[], .other⟩) rfl rfl, by decide⟩
    | 3, _ => exact ⟨.node 3 [], rfl, .leaf (p := ⟨[], .other⟩) rfl rfl, by decide⟩
    | 4, _ => exact ⟨.node 4 [], rfl, .leaf (p := ⟨[], .other⟩) rfl rfl, by decide⟩

example : applyEdits (fun n => n == 7) (fun _ => true) (fun s => some s.length)
    [⟨[⟨7, 'p'⟩, ⟨1, 'a'⟩], .other⟩]
    [.add 0 ['x'] 'b' true, .delete 0 7 none false (fun _ => true), .delete 0 1 (some 1) false
      (fun _ => true)] = some [⟨[⟨7, 'p'⟩, ⟨1, 'b'⟩], .other⟩] := by decide

end Sieve.Mime
