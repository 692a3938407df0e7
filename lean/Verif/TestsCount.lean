import Verif.TestsProps

/-!
# What `envelope :count` counts
-/

namespace Sieve.Tests

open Sieve.Expr (Val)

variable {F : Type}

/-- The number of envelope values with one of the names `names` of which the requested part is there and not empty. -/
inductive EnvelopeCounted (x : Ext F) (part : AddrPart) (zone : Option (Str → Option Str)) (names : List EnvName) :
    List (EnvName × Val F) → Nat → Prop where
  | nil : EnvelopeCounted x part zone names [] 0
  | counts {e env v n} : e.1 ∈ names → EnvelopeValue x part zone e.1 (text x.flt e.2) v → v ≠ [] →
      EnvelopeCounted x part zone names env n → EnvelopeCounted x part zone names (e :: env) (n + 1)
  | other {e env n} : e.1 ∉ names → EnvelopeCounted x part zone names env n → EnvelopeCounted x part zone names (e :: env) n
  | empty {e env n} : (∀ v, EnvelopeValue x part zone e.1 (text x.flt e.2) v → v = []) → EnvelopeCounted x part zone names env n →
      EnvelopeCounted x part zone names (e :: env) n

theorem envelopeCounted_iff (x : Ext F) (part : AddrPart) (zone : Option (Str → Option Str)) (names : List EnvName)
    (env : List (EnvName × Val F)) (n : Nat) : EnvelopeCounted x part zone names env n ↔
      n = ((((env.filter fun e => names.contains e.1).filterMap fun e => envelopeValue x part zone e.1 e.2)).filter
        fun v => !v.isEmpty).length := by
  constructor
  · intro h
    induction h with
    | nil => rfl
    | counts h1 h2 h3 _ ih =>
      have h2 := (envelopeValue_iff ..).mpr h2
      rw [List.filter_cons_of_pos (by simpa using h1), List.filterMap_cons, h2]
      simp only
      rw [List.filter_cons_of_pos (by simpa using h3), List.length_cons, ih]
    | other h1 _ ih => rw [List.filter_cons_of_neg (by simpa using h1), ih]
    | @empty e env n h1 _ ih =>
      by_cases h : names.contains e.1 = true
      · rw [List.filter_cons_of_pos (by simpa using h), List.filterMap_cons]
        cases h2 : envelopeValue x part zone e.1 e.2 with
        | none => exact ih
        | some v =>
          have := h1 v ((envelopeValue_iff ..).mp h2)
          subst this
          rw [ih]
          rfl
      · rw [List.filter_cons_of_neg (by simpa using h), ih]
  · rintro rfl
    induction env with
    | nil => exact .nil
    | cons e env ih =>
      by_cases h : names.contains e.1 = true
      · rw [List.filter_cons_of_pos (by simpa using h), List.filterMap_cons]
        cases h2 : envelopeValue x part zone e.1 e.2 with
        | none =>
          refine .empty (fun v hv => ?_) ih
          have := (envelopeValue_iff ..).mpr hv
          rw [h2] at this
          cases this
        | some v =>
          by_cases hv : v = []
          · subst hv
            refine .empty (fun v hv => ?_) ih
            have := (envelopeValue_iff ..).mpr hv
            rw [h2] at this
            cases this
            rfl
          · simp only
            rw [List.filter_cons_of_pos (by simpa using hv), List.length_cons]
            exact .counts (by simpa using h) ((envelopeValue_iff ..).mp h2) hv ih
      · rw [List.filter_cons_of_neg (by simpa using h)]
        exact .other (by simpa using h) ih

/-- C39 for `envelope :count`: the number of values that are not empty is compared with each key. -/
theorem envelope_count {x : Ext F} (hx : x.Ok) (isNot : Bool) (c : Comparator) (r : Rel) (part : AddrPart)
    (zone : Option (Str → Option Str)) (names : List EnvName) (env : List (EnvName × Val F)) (keys : List (Val F)) :
    ∃ n, (∀ m, EnvelopeCounted x part zone names env m ↔ m = n) ∧
      ∃ b, envelopeTest x isNot c (.count r) part zone names env keys = ⟨.bool (b ^^ isNot), []⟩ ∧
        (b = true ↔ ∃ k ∈ keys, NumSat x.flt (.int (n : Nat)) (number x k) r) := by
  refine ⟨_, fun m => envelopeCounted_iff x part zone names env m, _, rfl, ?_⟩
  rw [← countTest_iff hx]

/-- Of two senders and an empty recipient the senders count. -/
example : EnvelopeCounted exExt .all none [.from, .to] [(.from, .str "a@b".toList), (.to, .str []), (.from, .str "c@d".toList)] 2 := by
  rw [envelopeCounted_iff]
  decide +kernel

end Sieve.Tests
