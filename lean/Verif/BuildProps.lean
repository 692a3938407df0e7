import Verif.BuildLemmas
import Verif.HeaderProps

/-!
# C37, C56, C57, C58: the message as it is written
-/

namespace Sieve.Build
open Sieve.Mime (Header)

variable {N : Type}

/-! ## An untouched message -/

/-- Header fields one after another from `a` to `e`. -/
inductive Tiles (raw : Bytes) : List (Header N Val) → Nat → Nat → Prop
  | nil {a} : a ≤ raw.length → Tiles raw [] a a
  | cons {h hs a e} : h.value.field = a → h.value.start ≠ a → a ≤ h.value.stop → h.value.stop ≠ 0 → Tiles raw hs h.value.stop e →
      Tiles raw (h :: hs) a e

mutual
/-- Part `id` is the text from `a` to `b`: header fields, an empty line that ends in CRLF, and a text or other
parts. -/
inductive Intact (raw : Bytes) (parts : List (Part N)) : Nat → Nat → Nat → Prop
  | leaf {id p a b e} : parts[id]? = some p → p.header = a → Tiles raw p.headers a e → slice raw e p.body = some crlf →
      p.stop = b → p.body ≤ b → b ≤ raw.length → (∀ subs, p.content ≠ .multipart subs) → Intact raw parts id a b
  | multi {id p a b e subs e'} : parts[id]? = some p → p.header = a → Tiles raw p.headers a e → slice raw e p.body = some crlf →
      p.stop = b → p.content = .multipart subs → IntactAll raw parts p.body subs e' → e' ≤ b → b ≤ raw.length →
      Intact raw parts id a b
inductive IntactAll (raw : Bytes) (parts : List (Part N)) : Nat → List Nat → Nat → Prop
  | nil {s} : IntactAll raw parts s [] s
  | cons {s id a b subs e} : s ≤ a → Intact raw parts id a b → IntactAll raw parts b subs e → IntactAll raw parts s (id :: subs) e
end

/-- The text from `a` to `b`. -/
def cut (raw : Bytes) (a b : Nat) : Bytes := (raw.take b).drop a

theorem slice_cut {raw : Bytes} {a b} (h1 : a ≤ b) (h2 : b ≤ raw.length) : slice raw a b = some (cut raw a b) := by
  unfold slice cut
  rw [if_pos ⟨h1, h2⟩]

theorem cut_append {raw : Bytes} {a b c} (h1 : a ≤ b) (h2 : b ≤ c) (h3 : c ≤ raw.length) : cut raw a b ++ cut raw b c = cut raw a c := by
  unfold cut
  have e : raw.take c = raw.take b ++ (raw.take c).drop b := by
    conv_lhs => rw [← List.take_append_drop b (raw.take c), List.take_take, Nat.min_eq_left h2]
  conv_rhs => rw [e]
  rw [List.drop_append, show a - (raw.take b).length = 0 by simp; omega, List.drop_zero]

theorem cut_self (raw : Bytes) (a : Nat) : cut raw a a = [] := by simp [cut]

theorem tiles_lines {raw : Bytes} {hs : List (Header N Val)} {a e} (h : Tiles raw hs a e) :
    a ≤ e ∧ e ≤ raw.length ∧ ∃ fs, lines raw hs = some fs ∧ fs.flatten = cut raw a e := by
  induction h with
  | @nil a h => exact ⟨Nat.le_refl _, h, [], rfl, by simp [cut_self]⟩
  | @cons h hs a e h1 h2 h3 h4 _ ih =>
    obtain ⟨i1, i2, fs, i3, i4⟩ := ih
    refine ⟨by omega, i2, cut raw a h.value.stop :: fs, ?_, ?_⟩
    · have : line raw h = some (cut raw a h.value.stop) := by
        unfold line
        rw [if_pos h4, if_pos (by omega), h1, slice_cut h3 (by omega)]
      simp [lines, this, i3]
    · rw [List.flatten_cons, i4, cut_append h3 i1 i2]

/-- An untouched message shows its own text. -/
theorem intact_shows {raw : Bytes} {parts : List (Part N)} {id a b} (h : Intact raw parts id a b) :
    ∃ t, Shows raw parts id a b t ∧ t.text = cut raw a b ∧ a ≤ b ∧ b ≤ raw.length := by
  refine Intact.rec (motive_1 := fun id a b _ => ∃ t, Shows raw parts id a b t ∧ t.text = cut raw a b ∧ a ≤ b ∧ b ≤ raw.length)
    (motive_2 := fun s subs e _ => e ≤ raw.length → ∃ ks, ShowsAll raw parts s subs ks e ∧ Tree.text.texts ks = cut raw s e ∧ s ≤ e)
    ?_ ?_ ?_ ?_ h
  · intro id p a b e h1 h2 h3 h4 h5 h6 h7 h8
    obtain ⟨t1, t2, fs, t3, t4⟩ := tiles_lines h3
    obtain ⟨s1, s2, s3⟩ := slice_some h4
    have hlen := congrArg List.length s3
    simp only [crlf, List.length_cons, List.length_nil, List.length_drop, List.length_take] at hlen
    refine ⟨_, .leaf h1 (by omega) h8 h2 h5 t3 (slice_cut h6 h7), ?_, by omega, h7⟩
    simp only [Tree.text, Tree.text.texts, List.append_nil]
    rw [t4, s3]
    change cut raw a e ++ cut raw e p.body ++ _ = _
    rw [cut_append t1 s1 s2, cut_append (by omega) h6 h7]
  · intro id p a b e subs e' h1 h2 h3 h4 h5 h6 _ h8 h9 ih
    obtain ⟨t1, t2, fs, t3, t4⟩ := tiles_lines h3
    obtain ⟨s1, s2, s3⟩ := slice_some h4
    have hlen := congrArg List.length s3
    simp only [crlf, List.length_cons, List.length_nil, List.length_drop, List.length_take] at hlen
    obtain ⟨ks, k1, k2, k3⟩ := ih (by omega)
    refine ⟨_, .multi h1 (by omega) h6 h2 h5 t3 k1 (slice_cut h8 h9), ?_, by omega, h9⟩
    simp only [Tree.text]
    rw [t4, s3, k2]
    change cut raw a e ++ cut raw e p.body ++ _ ++ _ = _
    rw [cut_append t1 s1 s2, cut_append (by omega) k3 (by omega), cut_append (by omega) h8 h9]
  · intro s _
    exact ⟨[], .nil, by simp [Tree.text.texts, cut_self], Nat.le_refl _⟩
  · intro s id a b subs e h1 _ _ i1 i2 he
    obtain ⟨t, t1, t2, t3, t4⟩ := i1
    obtain ⟨ks, k1, k2, k3⟩ := i2 he
    refine ⟨_, .cons (slice_cut h1 (by omega)) t1 k1, ?_, by omega⟩
    simp only [Tree.text.texts]
    rw [t2, k2, cut_append h1 t3 t4, cut_append (by omega) k3 he]

variable [DecidableEq N]

/-- **C37 (1).** A message whose parts have not been edited is written as it was read.

What is missing: messages whose empty lines end in a bare LF, or that have no empty line, see `bare_newline_changed`. -/
theorem untouched_partial (ct : N) (m : Msg N) {b} (h : Intact m.raw m.parts 0 0 b) : Writes ct m m.raw := by
  obtain ⟨t, h1, h2, _, h4⟩ := intact_shows h
  have := writes_whole (Whole.plain (ct := ct) h1)
  rw [h2] at this
  simpa [cut] using this

end Sieve.Build
