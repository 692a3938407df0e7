import Verif.TestsModel
import Verif.GlobProps
import Verif.ExprLemmas
import Mathlib.Data.List.Infix

/-! # Lemmas about comparators and searches -/

namespace Sieve.Tests
open Sieve.Expr (Val Flt)

variable {F N : Type}

/-- The verdict of `attempt`, which does not depend on earlier captures. -/
def verdict (x : Ext F) (c : Comparator) (m : Match) (value key : Item F) : Bool := (attempt x c m value key []).2

theorem attempt_verdict (x : Ext F) (c : Comparator) (m : Match) (value key : Item F) (caps : Caps) :
    (attempt x c m value key caps).2 = verdict x c m value key := by
  unfold verdict attempt
  cases m <;> try rfl
  · simp only [Comparator.glob]
    split
    · rfl
    · split <;> rfl
  · simp only [regexMatch]
    split
    · rfl
    · split <;> rfl

theorem attempt_false (x : Ext F) (c : Comparator) (m : Match) (value key : Item F) (caps : Caps)
    (h : verdict x c m value key = false) : attempt x c m value key caps = (caps, false) := by
  rw [← attempt_verdict x c m value key caps] at h
  revert h
  unfold attempt
  cases m <;> try (intro h; simpa using h)
  · simp only [Comparator.glob]
    split
    · intro h; simpa using h
    · split <;> simp
  · simp only [regexMatch]
    split
    · intro h; simpa using h
    · split <;> simp

theorem each_any {σ α : Type} (f : α → σ → σ × Bool) (g : α → Bool) (h : ∀ a s, (f a s).2 = g a) (l : List α) (s : σ) :
    (each f l s).2 = l.any g := by
  induction l generalizing s with
  | nil => rfl
  | cons a as ih =>
    have := h a s
    simp only [each, List.any_cons]
    cases hf : f a s with
    | mk s' b =>
      rw [hf] at this
      simp only at this
      cases b
      · simp only [← this, Bool.false_or]; exact ih s'
      · simp [← this]

theorem each_false {σ α : Type} (f : α → σ → σ × Bool) (g : α → Bool) (h : ∀ a s, g a = false → f a s = (s, false))
    (l : List α) (s : σ) (hl : l.any g = false) : each f l s = (s, false) := by
  induction l with
  | nil => rfl
  | cons a as ih =>
    rw [List.any_cons, Bool.or_eq_false_iff] at hl
    simp only [each, h a s hl.1]
    exact ih hl.2

theorem each_first {σ α : Type} (f : α → σ → σ × Bool) (g : α → Bool) (h : ∀ a s, g a = false → f a s = (s, false))
    (h2 : ∀ a s, (f a s).2 = g a) (l : List α) (s : σ) (hl : l.any g = true) :
    ∃ pre a post, l = pre ++ a :: post ∧ pre.any g = false ∧ g a = true ∧ each f l s = f a s := by
  induction l with
  | nil => simp at hl
  | cons a as ih =>
    cases hg : g a with
    | true =>
      refine ⟨[], a, as, rfl, rfl, hg, ?_⟩
      have := h2 a s
      simp only [each]
      cases hf : f a s with
      | mk s' b =>
        rw [hf, hg] at this
        simp only at this
        subst this
        rfl
    | false =>
      rw [List.any_cons, hg, Bool.false_or] at hl
      obtain ⟨pre, b, post, h1, h3, h4, h5⟩ := ih hl
      refine ⟨a :: pre, b, post, by rw [h1]; rfl, by rw [List.any_cons, hg, h3]; rfl, h4, ?_⟩
      simp only [each, h a s hg]
      exact h5

theorem keys_any (x : Ext F) (c : Comparator) (m : Match) (v : Item F) (keys : List (Val F)) (s : Caps) :
    (each (fun k => attempt x c m v (.val k)) keys s).2 = keys.any fun k => verdict x c m v (.val k) :=
  each_any _ (fun k => verdict x c m v (.val k)) (fun k s => attempt_verdict x c m v (.val k) s) _ _

theorem keys_false (x : Ext F) (c : Comparator) (m : Match) (v : Item F) (keys : List (Val F)) (s : Caps)
    (h : (keys.any fun k => verdict x c m v (.val k)) = false) :
    each (fun k => attempt x c m v (.val k)) keys s = (s, false) :=
  each_false _ (fun k => verdict x c m v (.val k)) (fun k s h => attempt_false x c m v (.val k) s h) _ _ h

theorem search_verdict (x : Ext F) (c : Comparator) (m : Match) (vals : List Str) (keys : List (Val F)) :
    (search x c m vals keys).2 = vals.any fun v => keys.any fun k => verdict x c m (.text v) (.val k) :=
  each_any _ (fun v => keys.any fun k => verdict x c m (.text v) (.val k))
    (fun v s => keys_any x c m (.text v) keys s) _ _

theorem search_none (x : Ext F) (c : Comparator) (m : Match) (vals : List Str) (keys : List (Val F))
    (h : (search x c m vals keys).2 = false) : search x c m vals keys = ([], false) := by
  rw [search_verdict] at h
  exact each_false _ (fun v => keys.any fun k => verdict x c m (.text v) (.val k))
    (fun v s hv => keys_false x c m (.text v) keys s hv) _ _ h

theorem search_first (x : Ext F) (c : Comparator) (m : Match) (vals : List Str) (keys : List (Val F))
    (h : (search x c m vals keys).2 = true) :
    ∃ pre v post kpre k kpost, vals = pre ++ v :: post ∧ keys = kpre ++ k :: kpost ∧
      (∀ u ∈ pre, ∀ k' ∈ keys, verdict x c m (.text u) (.val k') = false) ∧
      (∀ k' ∈ kpre, verdict x c m (.text v) (.val k') = false) ∧ verdict x c m (.text v) (.val k) = true ∧
      search x c m vals keys = attempt x c m (.text v) (.val k) [] := by
  rw [search_verdict] at h
  obtain ⟨pre, v, post, h1, h2, h3, h4⟩ := each_first (fun v => each (fun k => attempt x c m (.text v) (.val k)) keys)
    (fun v => keys.any fun k => verdict x c m (.text v) (.val k))
    (fun v s hv => keys_false x c m (.text v) keys s hv) (fun v s => keys_any x c m (.text v) keys s) vals [] h
  obtain ⟨kpre, k, kpost, k1, k2, k3, k4⟩ := each_first (fun k => attempt x c m (.text v) (.val k))
    (fun k => verdict x c m (.text v) (.val k)) (fun k s h => attempt_false x c m (.text v) (.val k) s h)
    (fun k s => attempt_verdict x c m (.text v) (.val k) s) keys [] h3
  refine ⟨pre, v, post, kpre, k, kpost, h1, k1, ?_, ?_, k3, ?_⟩
  · intro u hu k' hk
    have := List.any_eq_false.mp h2 u hu
    simp only [Bool.not_eq_true] at this
    simpa using List.any_eq_false.mp this k' hk
  · intro k' hk
    simpa using List.any_eq_false.mp k2 k' hk
  · rw [← k4, ← h4]; rfl

theorem infixOf_iff (needle hay : Str) : infixOf needle hay = true ↔ needle <:+: hay := by
  simp only [infixOf, List.any_eq_true, List.mem_tails, List.isPrefixOf_iff_prefix]
  constructor
  · rintro ⟨t, ⟨a, rfl⟩, ⟨b, rfl⟩⟩
    exact ⟨a, b, by simp⟩
  · rintro ⟨a, b, rfl⟩
    exact ⟨needle ++ b, ⟨a, by simp⟩, ⟨b, rfl⟩⟩

end Sieve.Tests
