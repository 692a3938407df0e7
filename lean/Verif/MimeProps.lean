import Verif.Prelude
import Verif.MimeModel
/-
C38: part iteration.
-/
namespace Sieve.Mime
variable {N V : Type}

/-- A MIME tree whose nodes are part ids. -/
inductive Tree where
  | node (id : Nat) (children : List Tree)

/-- The id at the root. -/
def Tree.id : Tree → Nat
  | .node i _ => i

/-- Parents before children, children in order. -/
def Tree.preorder : Tree → List Nat
  | .node i ts => i :: forest ts
where
  forest : List Tree → List Nat
    | [] => []
    | t :: ts => t.preorder ++ forest ts

/-- The message has the given tree structure. -/
inductive Represents (parts : List (Part N V)) : Tree → Prop
  | leaf {i p} : parts[i]? = some p → p.body = .other → Represents parts (.node i [])
  | multi {i p ts} : parts[i]? = some p → p.body = .multipart (ts.map Tree.id) →
      (∀ t ∈ ts, Represents parts t) → Represents parts (.node i ts)

theorem visit_forest (parts : List (Part N V)) (n : Nat) :
    ∀ (ts : List Tree) (it : List Nat) (st : List (List Nat)) (rest : List Nat) (fuel : Nat),
      (Tree.preorder.forest ts).length ≤ n → (∀ t ∈ ts, Represents parts t) →
      visit parts true fuel it st = some rest →
      visit parts true (fuel + (Tree.preorder.forest ts).length) (ts.map Tree.id ++ it) st =
        some (Tree.preorder.forest ts ++ rest) := by
  induction n with
  | zero =>
    intro ts it st rest fuel hn _ h
    cases ts with
    | nil => simpa [Tree.preorder.forest] using h
    | cons t ts =>
      cases t with
      | node i cs => simp [Tree.preorder.forest, Tree.preorder] at hn
  | succ n ih =>
    intro ts it st rest fuel hn hr h
    cases ts with
    | nil => simpa [Tree.preorder.forest] using h
    | cons t ts =>
      have ht := hr t (List.mem_cons_self ..)
      have hts : ∀ t ∈ ts, Represents parts t := fun u hu => hr u (List.mem_cons_of_mem _ hu)
      cases t with
      | node i cs =>
        simp only [Tree.preorder.forest, Tree.preorder, List.length_append, List.length_cons] at hn ⊢
        have h1 := ih ts it st rest fuel (by omega) hts h
        cases ht with
        | leaf hp hb =>
          simp only [Tree.preorder.forest, List.length_nil]
          rw [show fuel + (0 + 1 + (Tree.preorder.forest ts).length) =
            (fuel + (Tree.preorder.forest ts).length) + 1 by omega]
          simp only [List.map_cons, Tree.id, List.cons_append, visit, next, hp, hb]
          rw [h1]
          simp
        | multi hp hb hc =>
          have h2 : visit parts true (fuel + (Tree.preorder.forest ts).length) []
              ((ts.map Tree.id ++ it) :: st) = some (Tree.preorder.forest ts ++ rest) := by
            have hf : ∃ f, fuel + (Tree.preorder.forest ts).length = f + 1 := by
              cases hfu : fuel + (Tree.preorder.forest ts).length with
              | zero => rw [hfu] at h1; simp [visit] at h1
              | succ f => exact ⟨f, rfl⟩
            obtain ⟨f, hf⟩ := hf
            rw [hf] at h1 ⊢
            simp only [visit, next] at h1 ⊢
            exact h1
          have h3 := ih cs [] ((ts.map Tree.id ++ it) :: st) _ _ (by omega) hc h2
          rw [List.append_nil] at h3
          rw [show fuel + ((Tree.preorder.forest cs).length + 1 + (Tree.preorder.forest ts).length) =
            (fuel + (Tree.preorder.forest ts).length + (Tree.preorder.forest cs).length) + 1 by omega]
          simp only [List.map_cons, Tree.id, List.cons_append, visit, next, hp, hb, if_true]
          rw [h3]
          simp

/-- **C38** (`:anychild`): the iteration from the root of a MIME tree visits every part of the tree
exactly once, parents before children, in document order, and then ends. -/
theorem anychild_preorder (parts : List (Part N V)) (t : Tree) (h : Represents parts t)
    (fuel : Nat) (hfuel : t.preorder.length < fuel) :
    visit parts true fuel [t.id] [] = some t.preorder := by
  have h0 : ∀ k, visit parts true (k + 1) [] [] = some [] := fun k => by simp [visit, next]
  have := visit_forest parts t.preorder.length [t] [] [] [] (fuel - t.preorder.length - 1 + 1)
    (by simp [Tree.preorder.forest]) (by simpa using h) (h0 _)
  simp only [Tree.preorder.forest, List.append_nil, List.map_cons, List.map_nil] at this
  rw [show fuel - t.preorder.length - 1 + 1 + t.preorder.length = fuel by omega] at this
  exact this

/-- **C38** (without `:anychild`): only the part itself is visited. -/
theorem no_anychild (parts : List (Part N V)) (part : Nat) (h : part < parts.length) (fuel : Nat) :
    visit parts false (fuel + 2) [part] [] = some [part] := by
  have hp : parts[part]? = some parts[part] := List.getElem?_eq_getElem h
  cases hb : (parts[part]).body <;> simp [visit, next, hp, hb]

theorem nested_forest (parts : List (Part N V)) (n : Nat) :
    ∀ (ts : List Tree) (it : List Nat) (st : List (List Nat)) (rest : List Nat) (fuel : Nat),
      (Tree.preorder.forest ts).length ≤ n → (∀ t ∈ ts, Represents parts t) →
      nestedGo parts fuel it st = some rest →
      ∃ k ≤ 2 * (Tree.preorder.forest ts).length,
      nestedGo parts (fuel + k) (ts.map Tree.id ++ it) st =
        some (Tree.preorder.forest ts ++ rest) := by
  induction n with
  | zero =>
    intro ts it st rest fuel hn _ h
    cases ts with
    | nil => exact ⟨0, by omega, by simpa [Tree.preorder.forest] using h⟩
    | cons t ts =>
      cases t with
      | node i cs => simp [Tree.preorder.forest, Tree.preorder] at hn
  | succ n ih =>
    intro ts it st rest fuel hn hr h
    cases ts with
    | nil => exact ⟨0, by omega, by simpa [Tree.preorder.forest] using h⟩
    | cons t ts =>
      have ht := hr t (List.mem_cons_self ..)
      have hts : ∀ t ∈ ts, Represents parts t := fun u hu => hr u (List.mem_cons_of_mem _ hu)
      cases t with
      | node i cs =>
        simp only [Tree.preorder.forest, Tree.preorder, List.length_append, List.length_cons] at hn ⊢
        obtain ⟨k1, hk1, h1⟩ := ih ts it st rest fuel (by omega) hts h
        cases ht with
        | leaf hp hb =>
          refine ⟨k1 + 1, by omega, ?_⟩
          rw [← Nat.add_assoc]
          simp only [List.map_cons, Tree.id, List.cons_append, nestedGo, hp, Option.map_some, hb]
          rw [h1]
          simp [Tree.preorder.forest]
        | multi hp hb hc =>
          have h2 : nestedGo parts (fuel + k1 + 1) [] ((ts.map Tree.id ++ it) :: st) =
              some (Tree.preorder.forest ts ++ rest) := by
            simp only [nestedGo]
            exact h1
          obtain ⟨k2, hk2, h3⟩ := ih cs [] ((ts.map Tree.id ++ it) :: st) _ _ (by omega) hc h2
          rw [List.append_nil] at h3
          refine ⟨k1 + 1 + k2 + 1, by omega, ?_⟩
          rw [show fuel + (k1 + 1 + k2 + 1) = (fuel + k1 + 1 + k2) + 1 by omega]
          simp only [List.map_cons, Tree.id, List.cons_append, nestedGo, hp, Option.map_some, hb]
          rw [h3]
          simp

theorem nestedGo_mono (parts : List (Part N V)) (fuel k : Nat) (it : List Nat) (st r)
    (h : nestedGo parts fuel it st = some r) : nestedGo parts (fuel + k) it st = some r := by
  induction fuel generalizing it st r with
  | zero => simp [nestedGo] at h
  | succ f ih =>
    rw [show f + 1 + k = (f + k) + 1 by omega]
    match it, st with
    | id :: it, st =>
      simp only [nestedGo] at h ⊢
      split at h
      · obtain ⟨r', hr', rfl⟩ := Option.map_eq_some_iff.mp h
        rw [ih _ _ _ hr']; rfl
      · obtain ⟨r', hr', rfl⟩ := Option.map_eq_some_iff.mp h
        rw [ih _ _ _ hr']; rfl
    | [], it :: st => simp only [nestedGo] at h ⊢; exact ih _ _ _ h
    | [], [] => simpa [nestedGo] using h

/-- **C38** (`foreverypart`): in a message whose parts are numbered in document order, the parts a
loop runs through (collected by `find_nested_parts_ids`) are the parts of the MIME tree below the
current part — including the current part itself for an outermost loop — each once, parents before
children, in document order. -/
theorem foreverypart_preorder (parts : List (Part N V)) (root t : Tree)
    (hroot : Represents parts root)
    (hnum : root.preorder = List.range parts.length)
    (ht : Represents parts t) (hroot0 : t.id = 0 → t = root)
    (includeCurrent : Bool) (fuel : Nat) (hfuel : 2 * t.preorder.length + 1 ≤ fuel) :
    findNestedPartsIds parts t.id includeCurrent fuel =
      some (if includeCurrent then t.preorder else t.preorder.tail) := by
  unfold findNestedPartsIds
  by_cases h0 : t.id = 0
  · rw [if_pos h0]
    have := hroot0 h0
    subst this
    rw [hnum]
    cases includeCurrent
    · simp only [Bool.false_eq_true, if_false]
      split
      · rw [List.range_eq_range', List.tail_range']
      · have : parts.length = 0 ∨ parts.length = 1 := by omega
        rcases this with h | h <;> rw [h] <;> rfl
    · rfl
  · rw [if_neg h0]
    cases ht with
    | leaf hp hb =>
      simp only [Tree.id, hp, Option.map_some, hb]
      cases includeCurrent <;> rfl
    | @multi i p ts hp hb hc =>
      simp only [Tree.id, hp, Option.map_some, hb]
      obtain ⟨k, hk, h1⟩ := nested_forest parts _ ts [] [] [] 1 (le_refl _) hc (by simp [nestedGo])
      simp only [List.append_nil] at h1
      simp only [Tree.preorder, List.length_cons] at hfuel
      have h2 := nestedGo_mono parts (1 + k) (fuel - (1 + k)) _ _ _ h1
      rw [show 1 + k + (fuel - (1 + k)) = fuel by omega] at h2
      rw [h2]
      cases includeCurrent <;> rfl

/-- A message with a nested multipart. -/
def demoParts : List (Part Unit Unit) :=
  [⟨[], .multipart [1, 4]⟩, ⟨[], .multipart [2, 3]⟩, ⟨[], .other⟩, ⟨[], .other⟩, ⟨[], .other⟩]

/-- Its tree. -/
def demoTree : Tree := .node 0 [.node 1 [.node 2 [], .node 3 []], .node 4 []]

theorem demo_represents : Represents demoParts demoTree := by
  refine .multi (p := ⟨[], .multipart [1, 4]⟩) rfl rfl ?_
  intro t ht
  simp only [List.mem_cons, List.not_mem_nil, or_false] at ht
  rcases ht with rfl | rfl
  · refine .multi (p := ⟨[], .multipart [2, 3]⟩) rfl rfl ?_
    intro t ht
    simp only [List.mem_cons, List.not_mem_nil, or_false] at ht
    rcases ht with rfl | rfl
    · exact .leaf (p := ⟨[], .other⟩) rfl rfl
    · exact .leaf (p := ⟨[], .other⟩) rfl rfl
  · exact .leaf (p := ⟨[], .other⟩) rfl rfl

example : demoTree.preorder = List.range demoParts.length := by decide
example : visit demoParts true 6 [0] [] = some [0, 1, 2, 3, 4] := by decide
example : findNestedPartsIds demoParts 1 false 5 = some [2, 3] := by decide

end Sieve.Mime
