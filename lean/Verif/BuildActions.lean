import Verif.BuildEdit

/-!
# C37, C56, C57, C58: edits, replace and enclose
-/

namespace Sieve.Build
open Sieve.Mime (Header Represents)

variable {N : Type}

/-! ## Header edits -/

theorem represents_unique {parts : List (Mime.Part N Val)} {u : Mime.Tree} (h : Represents parts u) :
    ∀ v, Represents parts v → v.id = u.id → v = u := by
  induction h with
  | @leaf i p hp hb =>
    intro v hv hi
    cases hv with
    | @leaf j q hq hb' =>
      simp only [Mime.Tree.id] at hi
      rw [hi]
    | @multi j q ts hq hb' _ =>
      simp only [Mime.Tree.id] at hi
      subst hi
      rw [hp] at hq
      injection hq with hq
      subst hq
      rw [hb] at hb'
      cases hb'
  | @multi i p ts hp hb _ ih =>
    intro v hv hi
    cases hv with
    | @leaf j q hq hb' =>
      simp only [Mime.Tree.id] at hi
      subst hi
      rw [hp] at hq
      injection hq with hq
      subst hq
      rw [hb] at hb'
      cases hb'
    | @multi j q ts' hq hb' hr =>
      simp only [Mime.Tree.id] at hi
      subst hi
      rw [hp] at hq
      injection hq with hq
      subst hq
      rw [hb] at hb'
      injection hb' with hb'
      congr 1
      clear hb hp
      rename_i hts
      clear hts
      induction ts generalizing ts' with
      | nil =>
        cases ts' with
        | nil => rfl
        | cons => simp at hb'
      | cons t ts ih2 =>
        cases ts' with
        | nil => simp at hb'
        | cons t' ts' =>
          simp only [List.map_cons, List.cons.injEq] at hb'
          rw [ih t (List.mem_cons_self ..) t' (hr t' (List.mem_cons_self ..)) hb'.1.symm,
            ih2 (fun v hv => ih v (List.mem_cons_of_mem _ hv)) (ts' := ts') (fun v hv => hr v (List.mem_cons_of_mem _ hv)) hb'.2]

/-- A message as it was read: untouched, its parts form a tree that has every part once, and its size is known. -/
structure Original (c : Ctx N) (b : Nat) : Prop where
  intact : Intact c.msg.raw c.msg.parts 0 0 b
  tree : ∃ u, Represents c.msg.mime u ∧ u.id = 0 ∧ u.preorder.Perm (List.range c.msg.parts.length)
  size : c.size = c.msg.raw.length

theorem tiles_plain {raw : Bytes} {hs : List (Header N Val)} {a e} (h : Tiles raw hs a e) :
    ∀ x ∈ hs, x.value.field ≠ x.value.start := by
  induction h with
  | nil => simp
  | cons h1 h2 _ _ _ ih =>
    intro x hx
    rcases List.mem_cons.mp hx with rfl | hx
    · rw [h1]
      exact Ne.symm h2
    · exact ih x hx

theorem intact_plain {raw : Bytes} {parts : List (Part N)} {id a b t} (hI : Intact raw parts id a b) (hS : Shows raw parts id a b t) :
    ∀ i ∈ t.ids, ∃ p, parts[i]? = some p ∧ ∀ h ∈ p.headers, h.value.field ≠ h.value.start := by
  obtain ⟨u, u1, u2, u3⟩ := (shows_shape hS).1
  rw [← u3]
  clear u3 hS
  refine Intact.rec (motive_1 := fun id a b _ => ∀ u : Mime.Tree, u.id = id → Represents (parts.map Part.mime) u →
      ∀ i ∈ u.preorder, ∃ p, parts[i]? = some p ∧ ∀ h ∈ p.headers, h.value.field ≠ h.value.start)
    (motive_2 := fun s subs e _ => ∀ us : List Mime.Tree, us.map Mime.Tree.id = subs → (∀ u ∈ us, Represents (parts.map Part.mime) u) →
      ∀ i ∈ Mime.Tree.preorder.forest us, ∃ p, parts[i]? = some p ∧ ∀ h ∈ p.headers, h.value.field ≠ h.value.start) ?_ ?_ ?_ ?_ hI u u1 u2
  · intro id p a b e h1 _ h3 _ _ _ _ h8 u hu hr i hi
    cases hr with
    | leaf hp hb =>
      simp only [Mime.Tree.id] at hu
      subst hu
      simp only [Mime.Tree.preorder, Mime.Tree.preorder.forest, List.mem_singleton] at hi
      subst hi
      exact ⟨p, h1, tiles_plain h3⟩
    | multi hp hb _ =>
      simp only [Mime.Tree.id] at hu
      subst hu
      rw [mime_get h1] at hp
      injection hp with hp
      subst hp
      exfalso
      simp only [Part.mime, Content.mime] at hb
      cases hb
  · intro id p a b e subs e' h1 _ h3 _ _ h6 _ _ _ ih u hu hr i hi
    cases hr with
    | leaf hp hb =>
      simp only [Mime.Tree.id] at hu
      subst hu
      rw [mime_get h1] at hp
      injection hp with hp
      subst hp
      simp only [Part.mime, Content.mime, h6] at hb
      cases hb
    | @multi j q ts hp hb hr =>
      simp only [Mime.Tree.id] at hu
      subst hu
      rw [mime_get h1] at hp
      injection hp with hp
      subst hp
      simp only [Part.mime, Content.mime, h6] at hb
      injection hb with hb
      rcases List.mem_cons.mp hi with rfl | hi
      · exact ⟨p, h1, tiles_plain h3⟩
      · exact ih ts hb.symm hr i hi
  · intro s us hu _ i hi
    cases us with
    | nil => simp [Mime.Tree.preorder.forest] at hi
    | cons => simp at hu
  · intro s id a b subs e _ _ _ i1 i2 us hu hr i hi
    cases us with
    | nil => simp at hu
    | cons u us =>
      simp only [List.map_cons, List.cons.injEq] at hu
      rcases List.mem_append.mp hi with hi | hi
      · exact i1 u hu.1 (hr u (List.mem_cons_self ..)) i hi
      · exact i2 us hu.2 (fun v hv => hr v (List.mem_cons_of_mem _ hv)) i hi

theorem original_good {c : Ctx N} {b} (h : Original c b) : ∃ t, Good c t b ∧ t.text ++ c.msg.raw.drop b = c.msg.raw := by
  obtain ⟨t, h1, h2, _, h4⟩ := intact_shows h.intact
  obtain ⟨u, u1, u2, u3⟩ := h.tree
  have hx : t.text ++ c.msg.raw.drop b = c.msg.raw := by
    rw [h2]
    simp [cut]
  have hids : u.preorder = t.ids := by
    obtain ⟨v, v1, v2, v3⟩ := (shows_shape h1).1
    rw [← v3, represents_unique u1 v v2 (by rw [v1, u2])]
  refine ⟨t, ⟨⟨0, h1⟩, by rw [hx]; exact h.size, by rw [← hids]; exact u3, ?_⟩, hx⟩
  intro p hp f hf _
  obtain ⟨i, hi⟩ := List.getElem?_of_mem hp
  have hmem : i ∈ t.ids := by
    rw [← hids]
    exact u3.symm.subset (List.mem_range.mpr (List.getElem?_eq_some_iff.mp hi).1)
  obtain ⟨p', e1, e2⟩ := intact_plain h.intact h1 i hmem
  rw [hi] at e1
  injection e1 with e1
  subst e1
  exact e2 f hf

variable [DecidableEq N]

open Classical in
/-- **C37 (3), C56.** `deleteheader` deletes exactly the lines of the header fields it selects, in the current part, or
with `:anychild` also in the parts inside it; nothing else changes, and the recorded size goes down by what was
deleted. -/
theorem deleteheader_written {c : Ctx N} {t b} (hc : Good c t b) (prot : N → Bool) {part : Nat} (hp : part < c.msg.parts.length)
    (name : N) (index : Option Int) (anychild : Bool) (mv : Header N Val → Bool) :
    ∃ c' ids, deleteHeader prot c part name index anychild mv (c.msg.parts.length + 2) = some c'
      ∧ (if anychild then ∃ u : Mime.Tree, u.id = part ∧ Represents c.msg.mime u ∧ ids = u.preorder else ids = [part])
      ∧ c'.msg.raw = c.msg.raw ∧ c'.msg.parts.length = c.msg.parts.length
      ∧ Good c' (t.edit fun i fs => remove (Deleted prot c.msg.parts name index mv ids i) fs) b := by
  have hlen : ∀ {c' : Ctx N} {t'}, Good c' t' b → t'.ids = t.ids → c'.msg.parts.length = c.msg.parts.length := by
    intro c' t' h1 h2
    have h3 := h1.all.length_eq
    have h4 := hc.all.length_eq
    rw [h2] at h3
    simp only [List.length_range] at h3 h4
    omega
  cases anychild with
  | false =>
    have hv := Mime.no_anychild c.msg.mime part (by simpa [Msg.mime] using hp) c.msg.parts.length
    obtain ⟨c', h1, h2, h3⟩ := delete_written hc prot part name index false mv _ [part] hv (by simp) (by simpa using hp)
    exact ⟨c', [part], h1, by simp, h2, hlen h3 (edit_ids _ _), h3⟩
  | true =>
    obtain ⟨a, hs⟩ := hc.shows
    obtain ⟨u, u1, u2, u3⟩ := (shows_shape hs).2 part (hc.all.symm.subset (List.mem_range.mpr hp))
    have hnd : u.preorder.Nodup := u3.nodup (hc.all.nodup_iff.mpr List.nodup_range)
    have hlt : ∀ i ∈ u.preorder, i < c.msg.parts.length := fun i hi => List.mem_range.mp (hc.all.subset (u3.subset hi))
    have hv := Mime.anychild_preorder c.msg.mime u u2 (c.msg.parts.length + 2) (by
      have := Mime.nodup_lt_length hnd hlt
      omega)
    rw [u1] at hv
    obtain ⟨c', h1, h2, h3⟩ := delete_written hc prot part name index true mv _ u.preorder hv hnd hlt
    exact ⟨c', u.preorder, h1, by simpa using ⟨u, u1, u2, rfl⟩, h2, hlen h3 (edit_ids _ _), h3⟩

/-- An edit by a script. -/
inductive Edit (N : Type) where
  | add (part : Nat) (name value : Bytes) (last : Bool)
  | delete (part : Nat) (name : N) (index : Option Int) (anychild : Bool) (mv : Header N Val → Bool)

def Edit.part : Edit N → Nat
  | .add p .. => p
  | .delete p .. => p

def apply (x : Names N) (c : Ctx N) : Edit N → Option (Ctx N)
  | .add part name value last => addHeader x c part name value last
  | .delete part name index anychild mv => deleteHeader x.prot c part name index anychild mv (c.msg.parts.length + 2)

def applyAll (x : Names N) : Ctx N → List (Edit N) → Option (Ctx N)
  | c, [] => some c
  | c, e :: es => (apply x c e).bind fun c => applyAll x c es

theorem edits_good (x : Names N) : ∀ (es : List (Edit N)) {c : Ctx N} {t b}, Good c t b → (∀ e ∈ es, e.part < c.msg.parts.length) →
    ∃ c' t', applyAll x c es = some c' ∧ Good c' t' b ∧ c'.msg.raw = c.msg.raw
  | [], c, t, b, hc, _ => ⟨c, t, rfl, hc, rfl⟩
  | e :: es, c, t, b, hc, he => by
    have key : ∃ c1 t1, apply x c e = some c1 ∧ Good c1 t1 b ∧ c1.msg.raw = c.msg.raw ∧ c1.msg.parts.length = c.msg.parts.length := by
      have hp := he e (List.mem_cons_self ..)
      cases e with
      | add part name value last =>
        simp only [apply, addHeader]
        by_cases hn : name = []
        · rw [if_pos hn]
          exact ⟨c, t, rfl, hc, rfl, rfl⟩
        · rw [if_neg hn]
          cases hx : x.parse name with
          | none => exact ⟨c, t, rfl, hc, rfl, rfl⟩
          | some n =>
            simp only
            by_cases hpr : x.prot n = true
            · rw [if_pos hpr]
              exact ⟨c, t, rfl, hc, rfl, rfl⟩
            · rw [if_neg hpr]
              obtain ⟨c1, h1, h2, h3⟩ := insert_written hc hp n name (x.clean value) last
              refine ⟨c1, _, h1, h2, h3, ?_⟩
              have h4 := h2.all.length_eq
              have h5 := hc.all.length_eq
              rw [edit_ids] at h4
              simp only [List.length_range] at h4 h5
              omega
      | delete part name index anychild mv =>
        obtain ⟨c1, ids, h1, _, h3, h4, h5⟩ := deleteheader_written hc x.prot hp name index anychild mv
        exact ⟨c1, _, h1, h5, h3, h4⟩
    obtain ⟨c1, t1, h1, h2, h3, h4⟩ := key
    obtain ⟨c', t', i1, i2, i3⟩ := edits_good x es h2 fun e' h' => by rw [h4]; exact he e' (List.mem_cons_of_mem _ h')
    exact ⟨c', t', by simp [applyAll, h1, i1], i2, by rw [i3, h3]⟩

/-- **C56.** After any number of header edits the size used by the `size` test is that of the message as it would be
written.

What is missing: `replace` and `enclose`, after which the size is wrong, see `replace_size_off` and
`enclose_size_off`. -/
theorem size_partial (ct : N) (x : Names N) (c : Ctx N) {b} (hc : Original c b) (es : List (Edit N))
    (he : ∀ e ∈ es, e.part < c.msg.parts.length) :
    ∃ c' y, applyAll x c es = some c' ∧ Writes ct c'.msg y ∧ c'.size = y.length := by
  obtain ⟨t, h1, _⟩ := original_good hc
  obtain ⟨c', t', i1, i2, _⟩ := edits_good x es h1 he
  exact ⟨c', _, i1, (good_writes ct i2).1, (good_writes ct i2).2⟩

/-- Header fields of the outermost part come first; what follows them does not change with them. -/
theorem outermost_edit {raw : Bytes} {parts : List (Part N)} {a b t} (h : Shows raw parts 0 a b t) (hnd : t.ids.Nodup) :
    ∃ fs rest, t.text = fs.flatten ++ rest ∧ ∀ g : Nat → List Bytes → List Bytes, (∀ i ≠ 0, ∀ l, g i l = l) →
      (t.edit g).text = (g 0 fs).flatten ++ rest := by
  have forest : ∀ (g : Nat → List Bytes → List Bytes), (∀ i ≠ 0, ∀ l, g i l = l) → ∀ ks, 0 ∉ Tree.ids.forest ks → Tree.edit.edits g ks = ks := by
    intro g hg
    refine fun ks => Tree.rec_1 (motive_1 := fun t => 0 ∉ t.ids → t.edit g = t) (motive_2 := fun ks => 0 ∉ Tree.ids.forest ks → Tree.edit.edits g ks = ks)
      (motive_3 := fun x => 0 ∉ x.2.ids → x.2.edit g = x.2) ?_ ?_ ?_ ?_ ks
    · intro i fs sep ks rest ih h0
      simp only [Tree.ids, List.mem_cons, not_or] at h0
      simp only [Tree.edit]
      rw [hg i (Ne.symm h0.1), ih h0.2]
    · intro _
      rfl
    · intro x ks h1 h2 h0
      obtain ⟨y, t⟩ := x
      simp only [Tree.ids.forest, List.mem_append, not_or] at h0
      simp only [Tree.edit.edits, h1 h0.1, h2 h0.2]
    · intro y t ih
      exact ih
  have main : ∀ {fs sep ks rest}, 0 ∉ Tree.ids.forest ks → ∃ fs' rest', (Tree.node 0 fs sep ks rest).text = fs'.flatten ++ rest'
      ∧ ∀ g : Nat → List Bytes → List Bytes, (∀ i ≠ 0, ∀ l, g i l = l) → ((Tree.node 0 fs sep ks rest).edit g).text = (g 0 fs').flatten ++ rest' := by
    intro fs sep ks rest h0
    refine ⟨fs, sep ++ Tree.text.texts ks ++ rest, by simp [Tree.text], ?_⟩
    intro g hg
    simp [Tree.edit, Tree.text, forest g hg ks h0]
  cases h with
  | leaf => exact main (by simp [Tree.ids.forest])
  | replaced => exact main (by simp [Tree.ids.forest])
  | multi =>
    rw [Tree.ids, List.nodup_cons] at hnd
    exact main hnd.1

open Classical in
/-- **C37 (2).** Adding and deleting header fields of the message itself: exactly those lines change.  What follows the
header fields stays as it is, byte by byte. -/
theorem outermost_written (ct : N) {c : Ctx N} {t b} (hc : Good c t b) : ∃ fs rest, Writes ct c.msg (List.flatten fs ++ rest)
    ∧ (∀ name spelling text last, ∃ c', insertHeader c 0 name spelling text last = some c'
        ∧ Writes ct c'.msg (List.flatten (if last then fs ++ [spelling ++ ascii ": " ++ text ++ crlf] else (spelling ++ ascii ": " ++ text ++ crlf) :: fs) ++ rest))
    ∧ ∀ prot name index mv, ∃ c', deleteHeader prot c 0 name index false mv (c.msg.parts.length + 2) = some c'
        ∧ Writes ct c'.msg (List.flatten (remove (Deleted prot c.msg.parts name index mv [0] 0) fs) ++ rest) := by
  obtain ⟨a, hs⟩ := hc.shows
  obtain ⟨fs, rest, h1, h2⟩ := outermost_edit hs (hc.all.nodup_iff.mpr List.nodup_range)
  have h0 : 0 < c.msg.parts.length := by
    cases hs with
    | leaf h => exact (List.getElem?_eq_some_iff.mp h).1
    | replaced h => exact (List.getElem?_eq_some_iff.mp h).1
    | multi h => exact (List.getElem?_eq_some_iff.mp h).1
  refine ⟨fs, rest ++ c.msg.raw.drop b, ?_, ?_, ?_⟩
  · have := (good_writes ct hc).1
    rw [h1] at this
    simpa using this
  · intro name spelling text last
    obtain ⟨c', e1, e2, e3⟩ := insert_written hc h0 name spelling text last
    refine ⟨c', e1, ?_⟩
    have := (good_writes ct e2).1
    rw [h2 _ (by intro i hi l; rw [if_neg hi]), e3, if_pos rfl] at this
    simpa using this
  · intro prot name index mv
    obtain ⟨c', ids, e1, e2, e3, _, e5⟩ := deleteheader_written hc prot h0 name index false mv
    simp only [Bool.false_eq_true, if_false] at e2
    subst e2
    refine ⟨c', e1, ?_⟩
    have := (good_writes ct e5).1
    rw [h2 _ (by
      intro i hi l
      refine remove_none _ ?_ l
      rintro pos ⟨_, h, _⟩
      simp only [List.mem_singleton] at h
      exact hi h), e3] at this
    simpa using this

end Sieve.Build
