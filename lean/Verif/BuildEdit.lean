import Verif.BuildProps

/-!
# C37, C56: header edits and the size of the message
-/

namespace Sieve.Build
open Sieve.Mime (Header Represents)

variable {N : Type}

/-! ## Specification: editing the tree -/

/-- The tree with other header fields. -/
def Tree.edit (g : Nat → List Bytes → List Bytes) : Tree → Tree
  | .node i fs sep ks rest => .node i (g i fs) sep (edits ks) rest
where
  edits : List (Bytes × Tree) → List (Bytes × Tree)
    | [] => []
    | (x, t) :: ks => (x, t.edit g) :: edits ks

/-- The ids of the parts, parents before children. -/
def Tree.ids : Tree → List Nat
  | .node i _ _ ks _ => i :: forest ks
where
  forest : List (Bytes × Tree) → List Nat
    | [] => []
    | (_, t) :: ks => t.ids ++ forest ks

/-- A list without the elements at some positions. -/
def remove {α : Type} (del : Nat → Prop) [DecidablePred del] (l : List α) : List α :=
  (l.zipIdx.filter fun x => ¬ del x.2).map Prod.fst

/-- The message shows the tree, which has every part once; the recorded size is that of the text; no header field has been
renamed. -/
structure Good (c : Ctx N) (t : Tree) (b : Nat) : Prop where
  shows : ∃ a, Shows c.msg.raw c.msg.parts 0 a b t
  size : c.size = (t.text ++ c.msg.raw.drop b).length
  all : t.ids.Perm (List.range c.msg.parts.length)
  plain : ∀ p ∈ c.msg.parts, ∀ h ∈ p.headers, h.value.stop ≠ 0 → h.value.field ≠ h.value.start

/-! ## Sizes -/

/-- Header fields of the parts of a tree. -/
def Tree.nodes : Tree → List (Nat × List Bytes)
  | .node i fs _ ks _ => (i, fs) :: forest ks
where
  forest : List (Bytes × Tree) → List (Nat × List Bytes)
    | [] => []
    | (_, t) :: ks => t.nodes ++ forest ks

/-- The number of bytes outside of header fields. -/
def Tree.bare : Tree → Nat
  | .node _ _ sep ks rest => sep.length + bares ks + rest.length
where
  bares : List (Bytes × Tree) → Nat
    | [] => 0
    | (x, t) :: ks => x.length + t.bare + bares ks

/-- The number of bytes in header fields. -/
def weight (l : List (Nat × List Bytes)) : Nat := (l.map fun x => x.2.flatten.length).sum

theorem weight_append (l l') : weight (l ++ l') = weight l + weight l' := by simp [weight]

mutual
theorem text_length : ∀ t : Tree, t.text.length = weight t.nodes + t.bare
  | .node i fs sep ks rest => by
    have := texts_length ks
    simp only [Tree.text, Tree.nodes, Tree.bare, List.length_append, weight, List.map_cons, List.sum_cons] at this ⊢
    omega
theorem texts_length : ∀ ks, (Tree.text.texts ks).length = weight (Tree.nodes.forest ks) + Tree.bare.bares ks
  | [] => by simp [Tree.text.texts, Tree.nodes.forest, Tree.bare.bares, weight]
  | (x, t) :: ks => by
    have h1 := text_length t
    have h2 := texts_length ks
    simp only [Tree.text.texts, Tree.nodes.forest, Tree.bare.bares, List.length_append, weight_append]
    omega
end

mutual
theorem edit_nodes (g) : ∀ t : Tree, (t.edit g).nodes = t.nodes.map fun x => (x.1, g x.1 x.2)
  | .node i fs sep ks rest => by simp [Tree.edit, Tree.nodes, edits_nodes g ks]
theorem edits_nodes (g) : ∀ ks, Tree.nodes.forest (Tree.edit.edits g ks) = (Tree.nodes.forest ks).map fun x => (x.1, g x.1 x.2)
  | [] => rfl
  | (x, t) :: ks => by simp [Tree.edit.edits, Tree.nodes.forest, edit_nodes g t, edits_nodes g ks]
end

mutual
theorem edit_bare (g) : ∀ t : Tree, (t.edit g).bare = t.bare
  | .node i fs sep ks rest => by simp [Tree.edit, Tree.bare, edits_bare g ks]
theorem edits_bare (g) : ∀ ks, Tree.bare.bares (Tree.edit.edits g ks) = Tree.bare.bares ks
  | [] => rfl
  | (x, t) :: ks => by simp [Tree.edit.edits, Tree.bare.bares, edit_bare g t, edits_bare g ks]
end

mutual
theorem ids_nodes : ∀ t : Tree, t.ids = t.nodes.map Prod.fst
  | .node i fs sep ks rest => by simp [Tree.ids, Tree.nodes, forest_nodes ks]
theorem forest_nodes : ∀ ks, Tree.ids.forest ks = (Tree.nodes.forest ks).map Prod.fst
  | [] => rfl
  | (x, t) :: ks => by simp [Tree.ids.forest, Tree.nodes.forest, ids_nodes t, forest_nodes ks]
end

theorem edit_ids (g) (t : Tree) : (t.edit g).ids = t.ids := by
  rw [ids_nodes, ids_nodes, edit_nodes, List.map_map]
  rfl

/-- The tree has the header fields of the parts. -/
theorem shows_nodes {raw : Bytes} {parts : List (Part N)} {id a b t} (h : Shows raw parts id a b t) :
    ∀ x ∈ t.nodes, ∃ p, parts[x.1]? = some p ∧ lines raw p.headers = some x.2 := by
  refine Shows.rec (motive_1 := fun id a b t _ => ∀ x ∈ t.nodes, ∃ p, parts[x.1]? = some p ∧ lines raw p.headers = some x.2)
    (motive_2 := fun e subs ks e' _ => ∀ x ∈ Tree.nodes.forest ks, ∃ p, parts[x.1]? = some p ∧ lines raw p.headers = some x.2) ?_ ?_ ?_ ?_ ?_ h
  · intro id p a b fs x h1 _ _ _ _ h6 _ y hy
    simp only [Tree.nodes, Tree.nodes.forest, List.mem_singleton] at hy
    subst hy
    exact ⟨p, h1, h6⟩
  · intro id p a b fs x h1 _ _ _ _ _ _ h8 y hy
    simp only [Tree.nodes, Tree.nodes.forest, List.mem_singleton] at hy
    subst hy
    exact ⟨p, h1, h8⟩
  · intro id p a b fs subs ks e x h1 _ _ _ _ h6 _ _ ih y hy
    rcases List.mem_cons.mp hy with rfl | hy
    · exact ⟨p, h1, h6⟩
    · exact ih y hy
  · intro e x hx
    simp [Tree.nodes.forest] at hx
  · intro e id a b t g subs ks e' _ _ _ i1 i2 x hx
    rcases List.mem_append.mp hx with hx | hx
    · exact i1 x hx
    · exact i2 x hx

/-- New header fields show in the tree. -/
theorem shows_edit {raw : Bytes} {parts parts' : List (Part N)} (g : Nat → List Bytes → List Bytes)
    (hp : ∀ (i : Nat) p fs, parts[i]? = some p → lines raw p.headers = some fs →
      ∃ hs, parts'[i]? = some (p.withHeaders hs) ∧ lines raw hs = some (g i fs)) {id a b t}
    (h : Shows raw parts id a b t) : Shows raw parts' id a b (t.edit g) := by
  refine Shows.rec (motive_1 := fun id a b t _ => Shows raw parts' id a b (t.edit g))
    (motive_2 := fun e subs ks e' _ => ShowsAll raw parts' e subs (Tree.edit.edits g ks) e') ?_ ?_ ?_ ?_ ?_ h
  · intro id p a b fs x h1 h2 h3 h4 h5 h6 h7
    obtain ⟨hs, e1, e2⟩ := hp id p fs h1 h6
    obtain ⟨hs0, h0, b0, s0, e0, c0⟩ := p
    exact .leaf e1 h2 h3 h4 h5 e2 h7
  · intro id p a b fs x h1 h2 h3 h4 h5 h6 h7 h8
    obtain ⟨hs, e1, e2⟩ := hp id p fs h1 h8
    obtain ⟨hs0, h0, b0, s0, e0, c0⟩ := p
    have := Shows.replaced (p := (Part.mk hs0 h0 b0 s0 e0 c0).withHeaders hs) e1 h2 h3 h4 h5 h6 h7 e2
    exact this
  · intro id p a b fs subs ks e x h1 h2 h3 h4 h5 h6 _ h8 ih
    obtain ⟨hs, e1, e2⟩ := hp id p fs h1 h6
    obtain ⟨hs0, h0, b0, s0, e0, c0⟩ := p
    exact .multi e1 h2 h3 h4 h5 e2 ih h8
  · intro e
    exact .nil
  · intro e id a b t x subs ks e' h1 _ _ i1 i2
    exact .cons h1 i1 i2

/-! ## The structure as part iteration sees it -/

theorem mime_get {parts : List (Part N)} {i : Nat} {p} (h : parts[i]? = some p) : (parts.map Part.mime)[i]? = some p.mime := by
  rw [List.getElem?_map, h]
  rfl

theorem shows_shape {raw : Bytes} {parts : List (Part N)} {id a b t} (h : Shows raw parts id a b t) :
    (∃ u : Mime.Tree, u.id = id ∧ Represents (parts.map Part.mime) u ∧ u.preorder = t.ids)
    ∧ ∀ i ∈ t.ids, ∃ u : Mime.Tree, u.id = i ∧ Represents (parts.map Part.mime) u ∧ u.preorder.Sublist t.ids := by
  have leafcase : ∀ {id : Nat} {p : Part N} {fs sep x}, parts[id]? = some p → (∀ subs, p.content ≠ .multipart subs) →
      (∃ u : Mime.Tree, u.id = id ∧ Represents (parts.map Part.mime) u ∧ u.preorder = (Tree.node id fs sep [] x).ids)
      ∧ ∀ i ∈ (Tree.node id fs sep [] x).ids, ∃ u : Mime.Tree, u.id = i ∧ Represents (parts.map Part.mime) u
        ∧ u.preorder.Sublist (Tree.node id fs sep [] x).ids := by
    intro id p fs sep x h1 h2
    have hr : Represents (parts.map Part.mime) (.node id []) := by
      refine .leaf (mime_get h1) ?_
      unfold Part.mime Content.mime
      show (match p.content with | .multipart subs => Mime.Body.multipart subs | _ => .other) = .other
      split
      · rename_i subs hs
        exact absurd hs (h2 subs)
      · rfl
    refine ⟨⟨_, rfl, hr, rfl⟩, ?_⟩
    intro i hi
    simp only [Tree.ids, Tree.ids.forest, List.mem_singleton] at hi
    subst hi
    exact ⟨_, rfl, hr, List.Sublist.refl _⟩
  refine Shows.rec (motive_1 := fun id a b t _ =>
      (∃ u : Mime.Tree, u.id = id ∧ Represents (parts.map Part.mime) u ∧ u.preorder = t.ids)
      ∧ ∀ i ∈ t.ids, ∃ u : Mime.Tree, u.id = i ∧ Represents (parts.map Part.mime) u ∧ u.preorder.Sublist t.ids)
    (motive_2 := fun e subs ks e' _ =>
      (∃ us : List Mime.Tree, us.map Mime.Tree.id = subs ∧ (∀ u ∈ us, Represents (parts.map Part.mime) u)
        ∧ Mime.Tree.preorder.forest us = Tree.ids.forest ks)
      ∧ ∀ i ∈ Tree.ids.forest ks, ∃ u : Mime.Tree, u.id = i ∧ Represents (parts.map Part.mime) u
        ∧ u.preorder.Sublist (Tree.ids.forest ks)) ?_ ?_ ?_ ?_ ?_ h
  · intro id p a b fs x h1 _ h3 _ _ _ _
    exact leafcase h1 h3
  · intro id p a b fs x h1 _ h3 _ _ _ _ _
    exact leafcase h1 (by intro subs hc; rw [h3] at hc; cases hc)
  · intro id p a b fs subs ks e x h1 _ h3 _ _ _ _ _ ih
    obtain ⟨⟨us, u1, u2, u3⟩, ih⟩ := ih
    have hr : Represents (parts.map Part.mime) (.node id us) := by
      refine .multi (mime_get h1) ?_ u2
      unfold Part.mime Content.mime
      simp only [h3, u1]
    refine ⟨⟨_, rfl, hr, ?_⟩, ?_⟩
    · simp only [Mime.Tree.preorder, Tree.ids, u3]
    · intro i hi
      rcases List.mem_cons.mp hi with rfl | hi
      · refine ⟨_, rfl, hr, ?_⟩
        simp only [Mime.Tree.preorder, Tree.ids, u3]
        exact List.Sublist.refl _
      · obtain ⟨u, v1, v2, v3⟩ := ih i hi
        exact ⟨u, v1, v2, v3.trans (List.sublist_cons_self ..)⟩
  · intro e
    refine ⟨⟨[], rfl, by simp, rfl⟩, by simp [Tree.ids.forest]⟩
  · intro e id a b t g subs ks e' _ _ _ i1 i2
    obtain ⟨⟨u, u1, u2, u3⟩, i1⟩ := i1
    obtain ⟨⟨us, w1, w2, w3⟩, i2⟩ := i2
    refine ⟨⟨u :: us, by simp [u1, w1], ?_, ?_⟩, ?_⟩
    · intro v hv
      rcases List.mem_cons.mp hv with rfl | hv
      · exact u2
      · exact w2 v hv
    · simp only [Mime.Tree.preorder.forest, Tree.ids.forest, u3, w3]
    · intro i hi
      rcases List.mem_append.mp hi with hi | hi
      · obtain ⟨v, v1, v2, v3⟩ := i1 i hi
        exact ⟨v, v1, v2, v3.trans (List.sublist_append_left ..)⟩
      · obtain ⟨v, v1, v2, v3⟩ := i2 i hi
        exact ⟨v, v1, v2, v3.trans (List.sublist_append_right ..)⟩

/-! ## Edits -/

theorem withHeaders_get {m : Msg N} {ps : List (Mime.Part N Val)} {i : Nat} {p q} (hp : m.parts[i]? = some p) (hq : ps[i]? = some q) :
    (m.withHeaders ps).parts[i]? = some (p.withHeaders q.headers) := by
  simp [Msg.withHeaders, List.getElem?_zipWith, hp, hq]

theorem withHeaders_length {m : Msg N} {ps : List (Mime.Part N Val)} (h : ps.length = m.parts.length) :
    (m.withHeaders ps).parts.length = m.parts.length := by
  simp [Msg.withHeaders, h]

theorem lines_append {raw : Bytes} : ∀ {hs hs' : List (Header N Val)} {fs fs'}, lines raw hs = some fs → lines raw hs' = some fs' →
    lines raw (hs ++ hs') = some (fs ++ fs')
  | [], hs', fs, fs', h, h' => by
    injection h with h
    subst h
    exact h'
  | h0 :: hs, hs', fs, fs', h, h' => by
    simp only [lines] at h
    cases e1 : line raw h0 with
    | none => rw [e1] at h; cases h
    | some l =>
      cases e2 : lines raw hs with
      | none => rw [e1, e2] at h; cases h
      | some ls =>
        rw [e1, e2] at h
        injection h with h
        subst h
        simp [lines, e1, lines_append e2 h']

theorem lines_cons {raw : Bytes} {h0 : Header N Val} {hs fs} (h : lines raw (h0 :: hs) = some fs) :
    ∃ l ls, line raw h0 = some l ∧ lines raw hs = some ls ∧ fs = l :: ls := by
  simp only [lines] at h
  cases e1 : line raw h0 with
  | none => rw [e1] at h; cases h
  | some l =>
    cases e2 : lines raw hs with
    | none => rw [e1, e2] at h; cases h
    | some ls =>
      rw [e1, e2] at h
      injection h with h
      exact ⟨l, ls, rfl, rfl, h.symm⟩

/-- An edit of the header fields that accounts for its size. -/
theorem good_edit {c : Ctx N} {t b} (hc : Good c t b) (g : Nat → List Bytes → List Bytes) (parts' : List (Part N)) (size' : Nat)
    (hlen : parts'.length = c.msg.parts.length)
    (hp : ∀ (i : Nat) p fs, c.msg.parts[i]? = some p → lines c.msg.raw p.headers = some fs →
      ∃ hs, parts'[i]? = some (p.withHeaders hs) ∧ lines c.msg.raw hs = some (g i fs)
        ∧ ∀ h ∈ hs, h ∈ p.headers ∨ h.value.stop = 0)
    (hs : size' + weight t.nodes = c.size + weight (t.nodes.map fun x => (x.1, g x.1 x.2))) :
    Good ⟨⟨c.msg.raw, parts'⟩, size'⟩ (t.edit g) b := by
  obtain ⟨⟨a, h1⟩, h2, h3, h4⟩ := hc
  refine ⟨⟨a, ?_⟩, ?_, ?_, ?_⟩
  · refine shows_edit g ?_ h1
    intro i p fs e1 e2
    obtain ⟨hs, e3, e4, _⟩ := hp i p fs e1 e2
    exact ⟨hs, e3, e4⟩
  · rw [List.length_append, text_length] at h2 ⊢
    rw [edit_bare, edit_nodes]
    show size' = _
    simp only at h2 ⊢
    omega
  · rw [edit_ids]
    show t.ids.Perm (List.range parts'.length)
    rw [hlen]
    exact h3
  · intro p' hp' h hh hne
    obtain ⟨i, hi⟩ := List.getElem?_of_mem hp'
    have hlt : i < c.msg.parts.length := by
      rw [← hlen]
      exact (List.getElem?_eq_some_iff.mp hi).1
    have e1 : c.msg.parts[i]? = some c.msg.parts[i] := List.getElem?_eq_getElem hlt
    have hmem : i ∈ t.ids := h3.symm.subset (List.mem_range.mpr hlt)
    rw [ids_nodes] at hmem
    obtain ⟨x, hx, rfl⟩ := List.mem_map.mp hmem
    obtain ⟨p, e2, e3⟩ := shows_nodes h1 x hx
    rw [e1] at e2
    injection e2 with e2
    subst e2
    obtain ⟨hs, e4, _, e6⟩ := hp x.1 _ _ e1 e3
    simp only at hi
    rw [hi] at e4
    injection e4 with e4
    subst e4
    have : h ∈ hs := by
      revert hh
      generalize c.msg.parts[x.1] = q
      obtain ⟨_, _, _, _, _, _⟩ := q
      exact id
    rcases e6 h this with e | e
    · exact h4 _ (List.getElem_mem hlt) h e hne
    · exact absurd e hne

theorem weight_add (l : Bytes) (last : Bool) (part : Nat) : ∀ (ns : List (Nat × List Bytes)), (ns.map Prod.fst).Nodup →
    weight (ns.map fun x => (x.1, if x.1 = part then (if last then x.2 ++ [l] else l :: x.2) else x.2))
      = weight ns + if part ∈ ns.map Prod.fst then l.length else 0
  | [], _ => by simp [weight]
  | x :: ns, h => by
    rw [List.map_cons, List.nodup_cons] at h
    have ih := weight_add l last part ns h.2
    simp only [weight, List.map_cons, List.sum_cons, List.mem_cons] at ih ⊢
    rw [ih]
    by_cases hx : x.1 = part
    · subst hx
      rw [if_neg h.1, if_pos rfl, if_pos (Or.inl rfl)]
      cases last <;> simp <;> omega
    · rw [if_neg hx]
      by_cases hm : part ∈ ns.map Prod.fst
      · rw [if_pos hm, if_pos (Or.inr hm)]
        omega
      · rw [if_neg hm, if_neg]
        · omega
        · rintro (rfl | h')
          · exact hx rfl
          · exact hm h'

variable [DecidableEq N]

/-- A good message is written as its tree, and has the recorded size. -/
theorem good_writes (ct : N) {c : Ctx N} {t b} (hc : Good c t b) :
    Writes ct c.msg (t.text ++ c.msg.raw.drop b) ∧ c.size = (t.text ++ c.msg.raw.drop b).length := by
  obtain ⟨a, h⟩ := hc.shows
  exact ⟨writes_whole (.plain h), hc.size⟩

/-- **C37 (2), C56.** A new header field is a new line of the part, first or last, and nothing else changes. -/
theorem insert_written {c : Ctx N} {t b} (hc : Good c t b) {part : Nat} (hp : part < c.msg.parts.length) (name : N) (spelling text : Bytes)
    (last : Bool) : ∃ c', insertHeader c part name spelling text last = some c'
      ∧ Good c' (t.edit fun i fs => if i = part then
          (if last then fs ++ [spelling ++ ascii ": " ++ text ++ crlf] else (spelling ++ ascii ": " ++ text ++ crlf) :: fs) else fs) b
      ∧ c'.msg.raw = c.msg.raw := by
  set l := spelling ++ ascii ": " ++ text ++ crlf with hl
  have hget : c.msg.mime[part]? = some (c.msg.parts[part]).mime := mime_get (List.getElem?_eq_getElem hp)
  refine ⟨⟨c.msg.withHeaders (c.msg.mime.set part ⟨if last then c.msg.parts[part].headers ++ [newField name spelling text]
    else newField name spelling text :: c.msg.parts[part].headers, c.msg.parts[part].content.mime⟩), c.size + (spelling.length + text.length + 4)⟩, ?_, ?_, rfl⟩
  · simp only [insertHeader, Mime.insertHeader, hget]
    rfl
  · refine good_edit hc _ _ _ ?_ ?_ ?_
    · exact withHeaders_length (by simp [Msg.mime])
    · intro i p fs e1 e2
      by_cases hi : i = part
      · subst hi
        have : c.msg.parts[i] = p := by
          rw [List.getElem?_eq_getElem hp] at e1
          injection e1
        subst this
        have hline : lines c.msg.raw [newField name spelling text] = some [l] := by
          simp [lines, line, newField, hl]
        refine ⟨if last then c.msg.parts[i].headers ++ [newField name spelling text] else newField name spelling text :: c.msg.parts[i].headers, ?_, ?_, ?_⟩
        · exact withHeaders_get e1 (List.getElem?_set_self (by simpa [Msg.mime] using hp))
        · rw [if_pos rfl]
          cases last
          · exact lines_append hline e2
          · exact lines_append e2 hline
        · intro h hh
          cases last
          · rcases List.mem_cons.mp hh with rfl | hh
            · exact Or.inr rfl
            · exact Or.inl hh
          · rcases List.mem_append.mp hh with hh | hh
            · exact Or.inl hh
            · rw [List.mem_singleton.mp hh]
              exact Or.inr rfl
      · refine ⟨p.headers, ?_, ?_, fun h hh => Or.inl hh⟩
        · exact withHeaders_get e1 (q := p.mime) (by rw [List.getElem?_set_ne (Ne.symm hi)]; exact mime_get e1)
        · rw [if_neg hi]
          exact e2
    · have hnd : (t.nodes.map Prod.fst).Nodup := by
        rw [← ids_nodes]
        exact hc.all.nodup_iff.mpr List.nodup_range
      have hm : part ∈ t.nodes.map Prod.fst := by
        rw [← ids_nodes]
        exact hc.all.symm.subset (List.mem_range.mpr hp)
      rw [weight_add l last part t.nodes hnd, if_pos hm]
      have : l.length = spelling.length + text.length + 4 := by
        simp [hl, crlf, ascii]
        omega
      omega

/-! ## deleteheader -/

/-- The length of a header field. -/
def fieldLen (h : Header N Val) : Nat :=
  if h.value.stop ≠ 0 then h.value.stop - h.value.field else h.value.spelling.length + h.value.text.length + 4

omit [DecidableEq N] in
theorem field_line {raw : Bytes} {h : Header N Val} {l} (hl : line raw h = some l) (hp : h.value.stop ≠ 0 → h.value.field ≠ h.value.start) :
    fieldSize h = some (fieldLen h) ∧ l.length = fieldLen h := by
  unfold line at hl
  unfold fieldSize fieldLen
  by_cases hs : h.value.stop ≠ 0
  · rw [if_pos hs, if_pos (hp hs)] at hl
    obtain ⟨h1, h2, rfl⟩ := slice_some hl
    rw [if_pos hs, if_pos h1, if_pos hs]
    refine ⟨rfl, ?_⟩
    simp only [List.length_drop, List.length_take]
    omega
  · rw [if_neg hs] at hl
    injection hl with hl
    subst hl
    rw [if_neg hs, if_neg hs]
    refine ⟨rfl, ?_⟩
    simp [crlf, ascii]
    omega

/-- `remove` by recursion. -/
def removeAt {α : Type} (del : Nat → Prop) [DecidablePred del] : List α → Nat → List α
  | [], _ => []
  | x :: xs, k => if del k then removeAt del xs (k + 1) else x :: removeAt del xs (k + 1)

theorem remove_eq {α : Type} (del : Nat → Prop) [DecidablePred del] (l : List α) : remove del l = removeAt del l 0 := by
  have : ∀ k, ((l.zipIdx k).filter fun x => ¬ del x.2).map Prod.fst = removeAt del l k := by
    induction l with
    | nil => intro k; rfl
    | cons x l ih =>
      intro k
      rw [List.zipIdx_cons, removeAt, List.filter_cons]
      by_cases h : del k
      · rw [if_pos h, if_neg (by simpa using h), ih]
      · rw [if_neg h, if_pos (by simpa using h), List.map_cons, ih]
  exact this 0

theorem removeAt_congr {α : Type} (d d' : Nat → Prop) [DecidablePred d] [DecidablePred d'] (l : List α) (k : Nat)
    (h : ∀ j, k ≤ j → j < k + l.length → (d j ↔ d' j)) : removeAt d l k = removeAt d' l k := by
  induction l generalizing k with
  | nil => rfl
  | cons x l ih =>
    have ih := ih (k + 1) fun j h1 h2 => h j (by omega) (by simp only [List.length_cons]; omega)
    simp only [removeAt, ih, h k (Nat.le_refl _) (by simp)]

omit [DecidableEq N] in
theorem lines_dropAt {raw : Bytes} (del : Nat → Prop) [DecidablePred del] : ∀ {hs : List (Header N Val)} {fs} (k : Nat),
    lines raw hs = some fs → lines raw (Mime.dropAt del hs k) = some (removeAt del fs k)
  | [], fs, k, h => by
    injection h with h
    subst h
    rfl
  | h0 :: hs, fs, k, h => by
    obtain ⟨l, ls, e1, e2, rfl⟩ := lines_cons h
    have ih := lines_dropAt del (k + 1) e2
    unfold Mime.dropAt removeAt
    by_cases hd : del k
    · rw [if_pos hd, if_pos hd, ih]
    · rw [if_neg hd, if_neg hd]
      simp [lines, e1, ih]

omit [DecidableEq N] in
theorem dropAt_mem (del : Nat → Prop) [DecidablePred del] : ∀ {hs : List (Header N Val)} {k : Nat} {h}, h ∈ Mime.dropAt del hs k → h ∈ hs
  | h0 :: hs, k, h, hh => by
    unfold Mime.dropAt at hh
    split at hh
    · exact List.mem_cons_of_mem _ (dropAt_mem del hh)
    · rcases List.mem_cons.mp hh with rfl | hh
      · exact List.mem_cons_self ..
      · exact List.mem_cons_of_mem _ (dropAt_mem del hh)

omit [DecidableEq N] in
theorem removed_weight {raw : Bytes} (del : Nat → Prop) [DecidablePred del] : ∀ {hs : List (Header N Val)} {fs} (k : Nat)
    (L : List (Header N Val × Nat)), lines raw hs = some fs → (∀ h ∈ hs, h.value.stop ≠ 0 → h.value.field ≠ h.value.start) →
    (L.Pairwise fun a b => a.2 < b.2) → (∀ x ∈ L, k ≤ x.2 ∧ hs[x.2 - k]? = some x.1) →
    (∀ pos, k ≤ pos → (del pos ↔ ∃ h, (h, pos) ∈ L)) →
    fs.flatten.length = (removeAt del fs k).flatten.length + (L.map fun x => fieldLen x.1).sum
  | [], fs, k, L, h, _, _, hL, _ => by
    injection h with h
    subst h
    cases L with
    | nil => simp [removeAt]
    | cons x L =>
      have := (hL x (List.mem_cons_self ..)).2
      simp at this
  | h0 :: hs, fs, k, L, h, hp, hasc, hL, hdel => by
    obtain ⟨l, ls, e1, e2, rfl⟩ := lines_cons h
    have hlen := (field_line e1 (hp h0 (List.mem_cons_self ..))).2
    have hp' : ∀ h ∈ hs, h.value.stop ≠ 0 → h.value.field ≠ h.value.start := fun h hh => hp h (List.mem_cons_of_mem _ hh)
    have later : ∀ x : Header N Val × Nat, k < x.2 → (h0 :: hs)[x.2 - k]? = some x.1 → k + 1 ≤ x.2 ∧ hs[x.2 - (k + 1)]? = some x.1 := by
      intro x h1 h2
      refine ⟨h1, ?_⟩
      rw [show x.2 - k = (x.2 - (k + 1)) + 1 by omega, List.getElem?_cons_succ] at h2
      exact h2
    by_cases hd : del k
    · obtain ⟨h', hm⟩ := (hdel k (Nat.le_refl _)).mp hd
      have hh' : h' = h0 := by
        have := (hL _ hm).2
        simp only [Nat.sub_self, List.getElem?_cons_zero] at this
        injection this with this
        exact this.symm
      subst hh'
      cases L with
      | nil => simp at hm
      | cons x L =>
        rw [List.pairwise_cons] at hasc
        have hx : x = (h', k) := by
          rcases List.mem_cons.mp hm with h1 | h1
          · exact h1.symm
          · have := hasc.1 _ h1
            have := (hL x (List.mem_cons_self ..)).1
            simp only at *
            omega
        subst hx
        have ih := removed_weight del (k + 1) L e2 hp' hasc.2
          (fun x hx => later x (hasc.1 x hx) (hL x (List.mem_cons_of_mem _ hx)).2) (by
            intro pos hpos
            rw [hdel pos (by omega)]
            constructor
            · rintro ⟨h, hh⟩
              rcases List.mem_cons.mp hh with h1 | h1
              · injection h1 with _ h1
                omega
              · exact ⟨h, h1⟩
            · rintro ⟨h, hh⟩
              exact ⟨h, List.mem_cons_of_mem _ hh⟩)
        unfold removeAt
        rw [if_pos hd]
        simp only [List.flatten_cons, List.length_append, List.map_cons, List.sum_cons]
        omega
    · have hne : ∀ x ∈ L, k < x.2 := by
        intro x hx
        have h1 := (hL x hx).1
        rcases Nat.lt_or_eq_of_le h1 with h1 | h1
        · exact h1
        · exact absurd ((hdel k (Nat.le_refl _)).mpr ⟨x.1, by rw [h1]; exact hx⟩) hd
      have ih := removed_weight del (k + 1) L e2 hp' hasc (fun x hx => later x (hne x hx) (hL x hx).2)
        (fun pos hpos => hdel pos (by omega))
      unfold removeAt
      rw [if_neg hd]
      simp only [List.flatten_cons, List.length_append]
      omega

theorem sum_append {l l' : List (Option Nat)} {a b} (h : sum l = some a) (h' : sum l' = some b) : sum (l ++ l') = some (a + b) := by
  induction l generalizing a with
  | nil =>
    injection h with h
    subst h
    simpa using h'
  | cons x l ih =>
    simp only [sum, List.cons_append] at h ⊢
    cases x with
    | none => cases h
    | some x =>
      cases hs : sum l with
      | none => rw [hs] at h; cases h
      | some y =>
        rw [hs] at h
        injection h with h
        rw [ih hs]
        simp only [Option.bind_eq_bind, Option.bind_some] at h ⊢
        subst h
        simp [Nat.add_assoc]

omit [DecidableEq N] in
theorem sum_fields : ∀ (L : List (Header N Val)), (∀ h ∈ L, fieldSize h = some (fieldLen h)) →
    sum (L.map fieldSize) = some (L.map fieldLen).sum
  | [], _ => rfl
  | h :: L, hL => by
    have ih := sum_fields L fun h hh => hL h (List.mem_cons_of_mem _ hh)
    simp [sum, ih, hL h (List.mem_cons_self ..)]

theorem sum_some_if (d : Nat → Nat) : ∀ (A B : List Nat), A.Nodup → B.Nodup → (∀ i ∈ B, i ∈ A) →
    (A.map fun i => if i ∈ B then d i else 0).sum = (B.map d).sum := by
  intro A B hA hB hsub
  have h1 : ∀ A : List Nat, (A.map fun i => if i ∈ B then d i else 0).sum = ((A.filter fun i => i ∈ B).map d).sum := by
    intro A
    induction A with
    | nil => rfl
    | cons x A ih =>
      rw [List.map_cons, List.sum_cons, ih, List.filter_cons]
      by_cases hx : x ∈ B
      · rw [if_pos hx, if_pos (by simpa using hx)]
        simp
      · rw [if_neg hx, if_neg (by simpa using hx)]
        simp
  rw [h1]
  refine List.Perm.sum_nat (List.Perm.map _ ?_)
  refine (List.perm_ext_iff_of_nodup (hA.filter _) hB).mpr ?_
  intro i
  simp only [List.mem_filter, decide_eq_true_eq]
  exact ⟨fun h => h.2, fun h => ⟨hsub i h, h⟩⟩

theorem weight_edit (g : Nat → List Bytes → List Bytes) (d : Nat → Nat) : ∀ (ns : List (Nat × List Bytes)),
    (∀ x ∈ ns, x.2.flatten.length = (g x.1 x.2).flatten.length + d x.1) →
    weight ns = weight (ns.map fun x => (x.1, g x.1 x.2)) + ((ns.map Prod.fst).map d).sum
  | [], _ => rfl
  | x :: ns, h => by
    have ih := weight_edit g d ns fun y hy => h y (List.mem_cons_of_mem _ hy)
    have := h x (List.mem_cons_self ..)
    simp only [weight, List.map_cons, List.sum_cons] at ih ⊢
    omega

/-- `deleteheader` deletes the header field at `pos` of part `i`. -/
def Deleted (prot : N → Bool) (parts : List (Part N)) (name : N) (index : Option Int) (mv : Header N Val → Bool) (ids : List Nat)
    (i pos : Nat) : Prop :=
  prot name = false ∧ i ∈ ids ∧ ∃ p, parts[i]? = some p ∧ Mime.Selected p.headers index name pos
    ∧ ∃ h, p.headers[pos]? = some h ∧ mv h = true

theorem remove_none {α : Type} (del : Nat → Prop) [DecidablePred del] (h : ∀ i, ¬ del i) (l : List α) : remove del l = l := by
  rw [remove_eq]
  generalize 0 = k
  induction l generalizing k with
  | nil => rfl
  | cons x l ih => rw [removeAt, if_neg (h k), ih]

mutual
theorem edit_id (g : Nat → List Bytes → List Bytes) (h : ∀ i fs, g i fs = fs) : ∀ t : Tree, t.edit g = t
  | .node i fs sep ks rest => by rw [Tree.edit, h, edits_id g h ks]
theorem edits_id (g : Nat → List Bytes → List Bytes) (h : ∀ i fs, g i fs = fs) : ∀ ks, Tree.edit.edits g ks = ks
  | [] => rfl
  | (x, t) :: ks => by rw [Tree.edit.edits, edit_id g h t, edits_id g h ks]
end

open Classical in
/-- `deleteheader` with the parts it looks at. -/
theorem delete_written {c : Ctx N} {t b} (hc : Good c t b) (prot : N → Bool) (part : Nat) (name : N) (index : Option Int) (anychild : Bool)
    (mv : Header N Val → Bool) (fuel : Nat) (ids : List Nat) (hv : Mime.visit c.msg.mime anychild fuel [part] [] = some ids)
    (hnd : ids.Nodup) (hids : ∀ i ∈ ids, i < c.msg.parts.length) :
    ∃ c', deleteHeader prot c part name index anychild mv fuel = some c' ∧ c'.msg.raw = c.msg.raw
      ∧ Good c' (t.edit fun i fs => remove (Deleted prot c.msg.parts name index mv ids i) fs) b := by
  obtain ⟨ps, h1, h2, h3⟩ := Mime.delete_visited prot c.msg.mime part name index anychild mv fuel ids hv hnd
  unfold deleteHeader
  by_cases hprot : prot name = true
  · rw [if_pos hprot]
    refine ⟨c, rfl, rfl, ?_⟩
    rw [edit_id]
    · exact hc
    · intro i fs
      refine remove_none _ ?_ fs
      rintro pos ⟨h, _⟩
      rw [hprot] at h
      cases h
  · rw [if_neg hprot]
    have hpf : prot name = false := by simpa using hprot
    obtain ⟨a, hshows⟩ := hc.shows
    -- the header fields of a part can be written
    have hpart : ∀ i : Nat, i < c.msg.parts.length → ∃ p fs, c.msg.parts[i]? = some p ∧ lines c.msg.raw p.headers = some fs := by
      intro i hi
      have hmem : i ∈ t.ids := hc.all.symm.subset (List.mem_range.mpr hi)
      rw [ids_nodes] at hmem
      obtain ⟨x, hx, rfl⟩ := List.mem_map.mp hmem
      obtain ⟨p, e1, e2⟩ := shows_nodes hshows x hx
      exact ⟨p, x.2, e1, e2⟩
    have hsize : ∀ (i : Nat) (p : Part N), c.msg.parts[i]? = some p → ∀ h ∈ p.headers, fieldSize h = some (fieldLen h) := by
      intro i p hp h hh
      obtain ⟨p', fs, e1, e2⟩ := hpart i (List.getElem?_eq_some_iff.mp hp).1
      rw [hp] at e1
      injection e1 with e1
      subst e1
      have hplain := hc.plain p (List.mem_of_getElem? hp) h hh
      clear h1 h3
      generalize p.headers = hs at e2 hh
      induction hs generalizing fs with
      | nil => simp at hh
      | cons h' hs ih =>
        obtain ⟨l, ls, e3, e4, _⟩ := lines_cons e2
        rcases List.mem_cons.mp hh with rfl | hh
        · exact (field_line e3 hplain).1
        · exact ih ls e4 hh
    -- what is found in a part
    set sel : Nat → List (Header N Val × Nat) := fun i =>
      match c.msg.mime[i]? with
      | none => []
      | some p => (Mime.selectHeaders p.headers index name).filter fun h => mv h.1 with hsel
    set D : Nat → Nat := fun i => ((sel i).map fun x => fieldLen x.1).sum with hD
    have hmime : ∀ i p, c.msg.parts[i]? = some p → sel i = (Mime.selectHeaders p.headers index name).filter fun h => mv h.1 := by
      intro i p hp
      simp only [hsel]
      rw [show c.msg.mime[i]? = some p.mime from mime_get hp]
      rfl
    have hmem : ∀ i p, c.msg.parts[i]? = some p → ∀ h pos, (h, pos) ∈ sel i ↔ p.headers[pos]? = some h
        ∧ Mime.Selected p.headers index name pos ∧ mv h = true := by
      intro i p hp h pos
      rw [hmime i p hp, List.mem_filter, Mime.select_iff]
      simp only [and_assoc]
    have hfound : ∃ found, Mime.findHeaders c.msg.mime part [name] index anychild fuel = some found
        ∧ sum ((found.filter fun h => mv h.1).map fun h => fieldSize h.1) = some ((ids.map D).sum) := by
      refine ⟨_, by rw [Mime.findHeaders, hv]; rfl, ?_⟩
      beta_reduce
      clear h1 h3 hv hnd
      induction ids with
      | nil => rfl
      | cons i ids ih =>
        have ih := ih fun j hj => hids j (List.mem_cons_of_mem _ hj)
        obtain ⟨p, fs, e1, e2⟩ := hpart i (hids i (List.mem_cons_self ..))
        rw [List.flatMap_cons, List.filter_append, List.map_append, List.map_cons, List.sum_cons]
        refine sum_append ?_ ih
        rw [show c.msg.mime[i]? = some p.mime from mime_get e1]
        simp only [List.flatMap_cons, List.flatMap_nil, List.append_nil, List.filter_map, List.map_map]
        have := sum_fields ((sel i).map Prod.fst) (by
          intro h hh
          obtain ⟨⟨h', pos⟩, hx, rfl⟩ := List.mem_map.mp hh
          exact hsize i p e1 h' (List.mem_of_getElem? ((hmem i p e1 h' pos).mp hx).1))
        rw [List.map_map, List.map_map] at this
        simp only [hD]
        rw [hmime i p e1] at this ⊢
        exact this
    obtain ⟨found, f1, f2⟩ := hfound
    -- the sizes
    have hdel : ∀ x ∈ t.nodes, x.2.flatten.length = (remove (Deleted prot c.msg.parts name index mv ids x.1) x.2).flatten.length
        + if x.1 ∈ ids then D x.1 else 0 := by
      intro x hx
      obtain ⟨p, e1, e2⟩ := shows_nodes hshows x hx
      by_cases hi : x.1 ∈ ids
      · rw [if_pos hi, remove_eq]
        refine removed_weight _ 0 (sel x.1) e2 (hc.plain p (List.mem_of_getElem? e1)) ?_ ?_ ?_
        · rw [hmime _ p e1]
          exact (Mime.select_ascending ..).filter _
        · intro y hy
          exact ⟨Nat.zero_le _, ((hmem _ p e1 y.1 y.2).mp hy).1⟩
        · intro pos _
          constructor
          · rintro ⟨_, _, p', e3, e4, h, e5, e6⟩
            rw [e1] at e3
            injection e3 with e3
            subst e3
            exact ⟨h, (hmem _ p e1 h pos).mpr ⟨e5, e4, e6⟩⟩
          · rintro ⟨h, hh⟩
            obtain ⟨e3, e4, e5⟩ := (hmem _ p e1 h pos).mp hh
            exact ⟨hpf, hi, p, e1, e4, h, e3, e5⟩
      · rw [if_neg hi, remove_none]
        · rfl
        · rintro pos ⟨_, h, _⟩
          exact hi h
    have hw := weight_edit (fun i fs => remove (Deleted prot c.msg.parts name index mv ids i) fs) (fun i => if i ∈ ids then D i else 0) t.nodes hdel
    rw [← ids_nodes, sum_some_if D t.ids ids (hc.all.nodup_iff.mpr List.nodup_range) hnd
      fun i hi => hc.all.symm.subset (List.mem_range.mpr (hids i hi))] at hw
    have hle : (ids.map D).sum ≤ c.size := by
      rw [hc.size, List.length_append, text_length]
      omega
    simp only [f1, f2, h1, Option.bind_eq_bind, Option.bind_some]
    rw [if_pos hle]
    refine ⟨_, rfl, rfl, ?_⟩
    refine good_edit hc _ _ _ (withHeaders_length (by rw [h2]; simp [Msg.mime])) ?_ (by omega)
    intro i p fs e1 e2
    have e3 := h3 i p.mime (mime_get e1)
    refine ⟨_, withHeaders_get e1 e3, ?_, ?_⟩
    · rw [Mime.without_eq, remove_eq]
      have := lines_dropAt (fun pos => prot name = false ∧ i ∈ ids ∧ Mime.Selected p.headers index name pos
        ∧ ∃ h, p.headers[pos]? = some h ∧ mv h = true) 0 e2
      refine (this.trans ?_)
      congr 1
      refine removeAt_congr _ _ _ _ ?_
      intro j _ _
      unfold Deleted
      constructor
      · rintro ⟨a1, a2, a3⟩
        exact ⟨a1, a2, p, e1, a3⟩
      · rintro ⟨a1, a2, p', e4, a3⟩
        rw [e1] at e4
        injection e4 with e4
        subst e4
        exact ⟨a1, a2, a3⟩
    · intro h hh
      rw [Mime.without_eq] at hh
      exact Or.inl (dropAt_mem _ hh)

end Sieve.Build
