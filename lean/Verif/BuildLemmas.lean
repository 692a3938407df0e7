import Verif.BuildModel

/-!
# C37: what a message with a given structure is written as
-/

namespace Sieve.Build
open Sieve.Mime (Header)

/-! ## Specification: the message as a tree of texts -/

/-- A part: its id, its header fields, the text that ends the header, the parts in it, each with the text before it, and
the text after them. -/
inductive Tree where
  | node (id : Nat) (fields : List Bytes) (sep : Bytes) (kids : List (Bytes × Tree)) (rest : Bytes)

/-- The text of a part. -/
def Tree.text : Tree → Bytes
  | .node _ fields sep kids rest => fields.flatten ++ sep ++ texts kids ++ rest
where
  texts : List (Bytes × Tree) → Bytes
    | [] => []
    | (g, t) :: ks => g ++ t.text ++ texts ks

variable {N : Type}

mutual
/-- The part `id` lies between `a` and `b` in the raw message and has the text of the tree. -/
inductive Shows (raw : Bytes) (parts : List (Part N)) : Nat → Nat → Nat → Tree → Prop
  /-- an original part -/
  | leaf {id p a b fs x} : parts[id]? = some p → p.body ≠ 0 → (∀ subs, p.content ≠ .multipart subs) → p.header = a →
      p.stop = b → lines raw p.headers = some fs → slice raw p.body b = some x → Shows raw parts id a b (.node id fs crlf [] x)
  /-- a part with a new text -/
  | replaced {id p a b fs x} : parts[id]? = some p → p.body = 0 → p.content = .text x → p.header = a → p.stop = b → 0 < b →
      b ≤ raw.length → lines raw p.headers = some fs → Shows raw parts id a b (.node id fs (if p.encoded then crlf else []) [] x)
  /-- an original multipart -/
  | multi {id p a b fs subs ks e x} : parts[id]? = some p → p.body ≠ 0 → p.content = .multipart subs → p.header = a →
      p.stop = b → lines raw p.headers = some fs → ShowsAll raw parts p.body subs ks e → slice raw e b = some x →
      Shows raw parts id a b (.node id fs crlf ks x)
/-- Parts one after another between two positions. -/
inductive ShowsAll (raw : Bytes) (parts : List (Part N)) : Nat → List Nat → List (Bytes × Tree) → Nat → Prop
  | nil {s} : ShowsAll raw parts s [] [] s
  | cons {s id a b t g subs ks e} : slice raw s a = some g → Shows raw parts id a b t → ShowsAll raw parts b subs ks e →
      ShowsAll raw parts s (id :: subs) ((g, t) :: ks) e
end

/-- The message is to be written as `x`. -/
inductive Whole [DecidableEq N] (ct : N) : Msg N → Bytes → Prop
  | plain {m a b t} : Shows m.raw m.parts 0 a b t → Whole ct m (t.text ++ m.raw.drop b)
  /-- a message made by `enclose` -/
  | enclosed {m p0 p1 p2 f0 f1 f2 body raw parts x bnd} :
      m.parts[0]? = some p0 → p0.body = 0 → p0.encoded = false → p0.content = .multipart [1, 2] →
      m.parts[1]? = some p1 → p1.body = 0 → p1.stop = 0 → p1.encoded = true → p1.content = .text body →
      m.parts[2]? = some p2 → p2.body = 0 → p2.stop = 0 → p2.encoded = true → p2.content = .message raw parts →
      lines m.raw p0.headers = some f0 → lines m.raw p1.headers = some f1 → lines m.raw p2.headers = some f2 →
      boundary (contentType ct p0.headers) = bnd → bnd ≠ [] → Whole ct ⟨raw, parts⟩ x →
      Whole ct m (f0.flatten ++ (crlf ++ ascii "--" ++ bnd ++ crlf) ++ f1.flatten ++ crlf ++ body
        ++ (crlf ++ ascii "--" ++ bnd ++ crlf) ++ f2.flatten ++ crlf ++ x ++ (crlf ++ ascii "--" ++ bnd ++ ascii "--" ++ crlf))

/-! ## Runs of the loop -/

theorem slice_some {raw : Bytes} {a b x} (h : slice raw a b = some x) : a ≤ b ∧ b ≤ raw.length ∧ x = (raw.take b).drop a := by
  unfold slice at h
  split at h
  · rename_i hab
    injection h with h
    exact ⟨hab.1, hab.2, h.symm⟩
  · cases h

section
variable [DecidableEq N]

inductive Steps (ct : N) : State N → State N → Prop
  | refl {s} : Steps ct s s
  | step {s s' s''} : step ct s = some (.inl s') → Steps ct s' s'' → Steps ct s s''

theorem Steps.trans {ct : N} {s s' s''} (h : Steps ct s s') (h' : Steps ct s' s'') : Steps ct s s'' := by
  induction h with
  | refl => exact h'
  | step h1 _ ih => exact .step h1 (ih h')

theorem Steps.one {ct : N} {s s'} (h : Build.step ct s = some (.inl s')) : Steps ct s s' := .step h .refl

theorem loop_of_steps {ct : N} {s s'} (h : Steps ct s s') {b} (hb : step ct s' = some (.inr b)) :
    ∃ n, ∀ fuel, n ≤ fuel → loop ct fuel s = some (some b) := by
  induction h with
  | refl =>
    refine ⟨1, ?_⟩
    intro fuel hf
    obtain ⟨f, rfl⟩ : ∃ f, fuel = f + 1 := ⟨fuel - 1, by omega⟩
    simp only [loop, hb]
  | step h1 _ ih =>
    obtain ⟨n, ih⟩ := ih hb
    refine ⟨n + 1, ?_⟩
    intro fuel hf
    obtain ⟨f, rfl⟩ : ∃ f, fuel = f + 1 := ⟨fuel - 1, by omega⟩
    simp only [loop, h1]
    exact ih f (by omega)

omit [DecidableEq N] in
theorem shows_pos {raw : Bytes} {parts : List (Part N)} {id a b t} (h : Shows raw parts id a b t) : 0 < b ∧ b ≤ raw.length := by
  refine Shows.rec (motive_1 := fun _ _ b _ _ => 0 < b ∧ b ≤ raw.length) (motive_2 := fun s _ _ e _ => 0 < s → 0 < e) ?_ ?_ ?_ ?_ ?_ h
  · intro id p a b fs x h1 h2 _ _ h5 _ h7
    obtain ⟨h8, h9, _⟩ := slice_some h7
    exact ⟨by omega, h9⟩
  · intro id p a b fs x _ _ _ _ _ h6 h7 _
    exact ⟨h6, h7⟩
  · intro id p a b fs subs ks e x _ h2 _ _ _ _ _ h8 ih
    obtain ⟨h9, h10, _⟩ := slice_some h8
    have := ih (by omega)
    exact ⟨by omega, h10⟩
  · exact fun h => h
  · intro s id a b t g subs ks e _ _ _ i1 i2 _
    exact i2 i1.1

omit [DecidableEq N] in
theorem before_eq {s : State N} {p : Part N} {a g} (ha : p.header = a) (hs : p.stop ≠ 0)
    (h : (0 < s.last ∧ slice s.cur.raw s.last a = some g) ∨ (s.last = 0 ∧ g = [])) : before s p = some g := by
  unfold before
  rcases h with ⟨h1, h2⟩ | ⟨h1, h2⟩
  · rw [if_pos h1, ha, h2]
  · rw [if_neg (by omega), if_neg (fun hc => hs hc.2.1), h2]

/-- The loop writes a part. -/
theorem shows_steps (ct : N) {raw : Bytes} {parts : List (Part N)} {id a b t} (h : Shows raw parts id a b t) :
    ∀ (s : State N) g it, s.cur = ⟨raw, parts⟩ → s.iter = id :: it →
      (0 < s.last ∧ slice raw s.last a = some g) ∨ (s.last = 0 ∧ g = []) →
      Steps ct s { s with out := s.out ++ g ++ t.text, iter := it, last := b } := by
  refine Shows.rec (motive_1 := fun id a b t _ => ∀ (s : State N) g it, s.cur = ⟨raw, parts⟩ → s.iter = id :: it →
      (0 < s.last ∧ slice raw s.last a = some g) ∨ (s.last = 0 ∧ g = []) →
      Steps ct s { s with out := s.out ++ g ++ t.text, iter := it, last := b })
    (motive_2 := fun e subs ks e' _ => ∀ (s : State N), s.cur = ⟨raw, parts⟩ → s.iter = subs → s.last = e → 0 < e →
      Steps ct s { s with out := s.out ++ Tree.text.texts ks, iter := [], last := e' }) ?_ ?_ ?_ ?_ ?_ h
  · intro id p a b fs x h1 h2 h3 h4 h5 h6 h7 s g it hc hi hg
    have hb : p.stop ≠ 0 := by
      have := (slice_some h7).1
      omega
    refine .one ?_
    simp only [step, hi, hc, h1, visit, before_eq h4 hb (by rw [hc]; exact hg), h6, h5, h7, Option.bind_eq_bind, Option.bind_some,
      if_pos h2, if_pos (Or.inl h2 : p.body ≠ 0 ∨ p.encoded = true)]
    cases hp : p.content with
    | multipart subs => exact absurd hp (h3 subs)
    | text t => simp [Tree.text, Tree.text.texts, hc]
    | message r ps => simp [Tree.text, Tree.text.texts, hc]
  · intro id p a b fs x h1 h2 h3 h4 h5 h6 h7 h8 s g it hc hi hg
    refine .one ?_
    simp only [step, hi, hc, h1, visit, before_eq h4 (by omega) (by rw [hc]; exact hg), h8, h5, h3, h2, Option.bind_eq_bind, Option.bind_some]
    simp [Tree.text, Tree.text.texts, hc]
  · intro id p a b fs subs ks e x h1 h2 h3 h4 h5 h6 h7 h8 ih s g it hc hi hg
    have hb : p.stop ≠ 0 := by
      rw [h5]
      have := (shows_pos (.multi h1 h2 h3 h4 h5 h6 h7 h8)).1
      omega
    refine .step (s' := { s with out := s.out ++ g ++ fs.flatten ++ crlf, iter := subs, stack := ⟨.none, p.stop, it⟩ :: s.stack, last := p.body }) ?_ ?_
    · simp only [step, hi, hc, h1, visit, before_eq h4 hb (by rw [hc]; exact hg), h6, h3, Option.bind_eq_bind, Option.bind_some,
        if_pos h2, if_pos (Or.inl h2 : p.body ≠ 0 ∨ p.encoded = true), Option.map_some]
    · refine (ih { s with out := s.out ++ g ++ fs.flatten ++ crlf, iter := subs, stack := ⟨.none, p.stop, it⟩ :: s.stack, last := p.body } hc rfl rfl (by omega)).trans (.one ?_)
      simp only [step, leave, hc, h5, h8]
      simp [Tree.text]
  · intro e s hc hi hl _
    have : s = { s with out := s.out ++ Tree.text.texts [], iter := [], last := e } := by
      simp only [Tree.text.texts, List.append_nil]
      rw [← hi, ← hl]
    rw [← this]
    exact .refl
  · intro e id a b t g subs ks e' h1 h2 h3 i1 i2 s hc hi hl hp
    refine (i1 s g subs hc hi (Or.inl ⟨by omega, by rw [hl, h1]⟩)).trans ?_
    have := i2 { s with out := s.out ++ g ++ t.text, iter := subs, last := b } hc rfl rfl (shows_pos h2).1
    simpa [Tree.text.texts] using this

/-- The loop writes a message, except for the part after its end. -/
theorem whole_steps (ct : N) {m : Msg N} {x} (h : Whole ct m x) :
    ∀ (s : State N), s.cur = m → s.iter = [0] → s.last = 0 → (s.bnd = [] ∨ topIsMessage s.stack = true) →
      ∃ y l, Steps ct s { s with out := s.out ++ y, iter := [], last := l } ∧ x = y ++ remainder m.raw l := by
  induction h with
  | @plain m a b t h =>
    intro s hc hi hl _
    refine ⟨t.text, b, ?_, ?_⟩
    · have := shows_steps ct h s [] [] hc hi (Or.inr ⟨hl, rfl⟩)
      simpa using this
    · rw [remainder, if_pos (shows_pos h).1]
  | @enclosed m p0 p1 p2 f0 f1 f2 body raw parts x bnd a1 a2 a3 a4 b1 b2 b3 b4 b5 c1 c2 c3 c4 c5 l0 l1 l2 hb hn _ ih =>
    intro s hc hi hl hq
    have hbef : before s p0 = some [] := by
      unfold before
      rw [if_neg (by omega), if_neg]
      rintro ⟨h1, _, h3⟩
      rcases hq with hq | hq
      · exact h1 hq
      · rw [hq] at h3; cases h3
    let s1 : State N := { s with bnd := bnd, out := s.out ++ f0.flatten, iter := [1, 2], stack := ⟨.boundary s.bnd, p0.stop, []⟩ :: s.stack }
    have e1 : step ct s = some (.inl s1) := by
      simp only [step, hi, hc, a1, visit, hbef, l0, a2, a3, a4, hb, Option.bind_eq_bind, Option.bind_some]
      simp [s1, hc]
    let d := crlf ++ ascii "--" ++ bnd ++ crlf
    let s2 : State N := { s1 with out := s1.out ++ d ++ f1.flatten ++ crlf ++ body, iter := [2], last := 0 }
    have e2 : step ct s1 = some (.inl s2) := by
      have hbef : before s1 p1 = some d := by
        unfold before
        rw [if_neg (by simp [s1, hl]), if_pos ⟨hn, b3, rfl⟩]
      have hc1 : s1.cur = m := hc
      have hi1 : s1.iter = [1, 2] := rfl
      simp only [step, hi1, hc1, b1, visit, hbef, l1, b2, b3, b4, b5, Option.bind_eq_bind, Option.bind_some]
      simp [s2, s1, hc]
    let s3 : State N := { s2 with cur := ⟨raw, parts⟩, out := s2.out ++ d ++ f2.flatten ++ crlf, iter := [0],
                                  stack := ⟨.message m, p2.stop, []⟩ :: s2.stack }
    have e3 : step ct s2 = some (.inl s3) := by
      have hbef : before s2 p2 = some d := by
        unfold before
        rw [if_neg (by simp [s2]), if_pos ⟨hn, c3, rfl⟩]
      have hc1 : s2.cur = m := hc
      have hi1 : s2.iter = [2] := rfl
      simp only [step, hi1, hc1, c1, visit, hbef, l2, c2, c3, c4, c5, Option.bind_eq_bind, Option.bind_some]
      simp [s3, s2, s1, hc, c3]
    obtain ⟨y, l, hs, hx⟩ := ih s3 rfl rfl rfl (Or.inr rfl)
    let s4 : State N := { s3 with out := s3.out ++ y, iter := [], last := l }
    let s5 : State N := { s2 with out := s3.out ++ x, iter := [], last := 0 }
    have e4 : step ct s4 = some (.inl s5) := by
      simp only [step, leave, s4, s5, s3]
      rw [hx]
      simp [s2, s1, hc]
    let z := crlf ++ ascii "--" ++ bnd ++ ascii "--" ++ crlf
    let s6 : State N := { s with out := s3.out ++ x ++ z, iter := [], last := 0 }
    have e5 : step ct s5 = some (.inl s6) := by
      simp only [step, leave, s5, s6, s2, s1]
      rw [if_pos hn]
    have hall : Steps ct s s6 := .step e1 (.step e2 (.step e3 (hs.trans (.step e4 (.one e5)))))
    refine ⟨f0.flatten ++ d ++ f1.flatten ++ crlf ++ body ++ d ++ f2.flatten ++ crlf ++ x ++ z, 0, ?_, ?_⟩
    · simpa [s6, s3, s2, s1] using hall
    · simp [remainder, d, z]

/-- What the message is to be written as is what `build_message` makes. -/
theorem build_whole (ct : N) {m : Msg N} {x} (h : Whole ct m x) :
    ∃ n, ∀ fuel, n ≤ fuel → build ct fuel m = some (some x) := by
  obtain ⟨y, l, hs, rfl⟩ := whole_steps ct h ⟨m, [], [], [0], [], 0⟩ rfl rfl rfl (Or.inl rfl)
  exact loop_of_steps hs (by simp [step, leave])

theorem loop_mono (ct : N) : ∀ (n : Nat) (s : State N) r, loop ct n s = some r → ∀ k, loop ct (n + k) s = some r := by
  intro n
  induction n with
  | zero => intro s r h; simp [loop] at h
  | succ n ih =>
    intro s r h k
    rw [Nat.add_right_comm]
    simp only [loop] at h ⊢
    cases hs : step ct s with
    | none => rw [hs] at h; exact h
    | some q =>
      rw [hs] at h
      cases q with
      | inl s' => exact ih s' r h k
      | inr b => exact h

/-- `build_message` writes `x`. -/
def Writes (ct : N) (m : Msg N) (x : Bytes) : Prop := ∃ fuel, build ct fuel m = some (some x)

/-- It writes one message only. -/
theorem writes_unique {ct : N} {m : Msg N} {x y} (h : Writes ct m x) (h' : Writes ct m y) : x = y := by
  obtain ⟨f, h⟩ := h
  obtain ⟨f', h'⟩ := h'
  have h1 := loop_mono ct f _ _ h f'
  have h2 := loop_mono ct f' _ _ h' f
  rw [Nat.add_comm] at h2
  rw [h1] at h2
  injection h2 with h2
  injection h2

theorem writes_whole {ct : N} {m : Msg N} {x} (h : Whole ct m x) : Writes ct m x := by
  obtain ⟨n, h⟩ := build_whole ct h
  exact ⟨n, h n (Nat.le_refl _)⟩

end

end Sieve.Build
