import Verif.OtherTestsModel
import Verif.TestsProps

/-! # Lemmas about the remaining tests -/

namespace Sieve.Tests
open Sieve.Expr (Val Flt)

variable {F N V : Type}

section
variable [DecidableEq N]

theorem visit_searched (parts : List (Mime.Part N V)) (t : Mime.Tree) (ht : Mime.Represents parts t)
    (anychild : Bool) (fuel : Nat) (hfuel : t.preorder.length < fuel) :
    Mime.visit parts anychild fuel [t.id] [] = some (searched anychild t) := by
  cases anychild with
  | true => exact Mime.anychild_preorder parts t ht fuel hfuel
  | false =>
    have h1 : 0 < t.preorder.length := by cases t; simp [Mime.Tree.preorder]
    have h2 : t.id < parts.length := by
      cases ht with
      | leaf h => exact (List.getElem?_eq_some_iff.mp h).1
      | multi h => exact (List.getElem?_eq_some_iff.mp h).1
    obtain ⟨k, rfl⟩ : ∃ k, fuel = k + 2 := ⟨fuel - 2, by omega⟩
    exact Mime.no_anychild parts t.id h2 k

theorem zip_zipWith (f : Bool → N → Bool) : ∀ (seen : List Bool) (names : List N),
    (List.zipWith f seen names).zip names = (seen.zip names).map fun e => (f e.1 e.2, e.2)
  | [], _ => rfl
  | _ :: _, [] => rfl
  | _ :: bs, _ :: ns => by simp [zip_zipWith f bs ns]

theorem all_zip : ∀ (seen : List Bool) (names : List N), seen.length = names.length →
    (seen.all id = true ↔ ∀ e ∈ seen.zip names, e.1 = true)
  | [], _, _ => by simp
  | b :: bs, [], h => by simp at h
  | b :: bs, n :: ns, h => by
    have := all_zip bs ns (by simpa using h)
    simp only [List.all_cons, Bool.and_eq_true, List.zip_cons_cons, List.forall_mem_cons, this, id]

theorem existsGo_iff (names : List N) : ∀ (ps : List (List N)) (seen : List Bool), seen.length = names.length →
    (existsGo names ps seen = true ↔
      ps ≠ [] ∧ ∀ e ∈ seen.zip names, e.1 = true ∨ ∃ hs ∈ ps, e.2 ∈ hs)
  | [], _, _ => by simp [existsGo]
  | hs :: rest, seen, h => by
    have hl : (List.zipWith (fun b n => b || hs.any (· == n)) seen names).length = names.length := by
      simp [h]
    have ha := all_zip _ names hl
    rw [zip_zipWith] at ha
    simp only [List.forall_mem_map] at ha
    have hm : ∀ n, hs.any (· == n) = true ↔ n ∈ hs := by intro n; simp
    simp only [existsGo]
    by_cases hall : (List.zipWith (fun b n => b || hs.any (· == n)) seen names).all id = true
    · rw [if_pos hall]
      simp only [true_iff]
      refine ⟨by simp, fun e he => ?_⟩
      have := ha.mp hall e he
      rw [Bool.or_eq_true, hm] at this
      rcases this with h | h
      · exact .inl h
      · exact .inr ⟨hs, by simp, h⟩
    · rw [if_neg hall, existsGo_iff names rest _ hl, zip_zipWith]
      simp only [List.forall_mem_map, Bool.or_eq_true, hm]
      constructor
      · rintro ⟨_, h2⟩
        refine ⟨by simp, fun e he => ?_⟩
        rcases h2 e he with (h3 | h3) | ⟨hs', h3, h4⟩
        · exact .inl h3
        · exact .inr ⟨hs, by simp, h3⟩
        · exact .inr ⟨hs', by simp [h3], h4⟩
      · rintro ⟨_, h2⟩
        refine ⟨?_, fun e he => ?_⟩
        · rintro rfl
          refine hall (ha.mpr fun e he => ?_)
          rw [Bool.or_eq_true, hm]
          rcases h2 e he with h3 | ⟨hs', h3, h4⟩
          · exact .inl h3
          · simp only [List.mem_singleton] at h3
            subst h3
            exact .inr h4
        · rcases h2 e he with h3 | ⟨hs', h3, h4⟩
          · exact .inl (.inl h3)
          · rcases List.mem_cons.mp h3 with rfl | h3
            · exact .inl (.inr h4)
            · exact .inr ⟨hs', h3, h4⟩

theorem replicate_zip (names : List N) : (List.replicate names.length false).zip names = names.map fun n => (false, n) := by
  induction names with
  | nil => rfl
  | cons n ns ih => simp [List.replicate_succ, ih]
end

/-! ## Numerals -/

/-- The last `w` digits. -/
def fixed : Nat → Nat → Str
  | 0, _ => []
  | w + 1, n => fixed w (n / 10) ++ [digit n]

theorem fixed_length (w n : Nat) : (fixed w n).length = w := by
  induction w generalizing n with
  | zero => rfl
  | succ w ih => simp [fixed, ih]

theorem fixed_zero (w : Nat) : fixed w 0 = List.replicate w '0' := by
  induction w with
  | zero => rfl
  | succ w ih =>
    rw [fixed, Nat.zero_div, ih, List.replicate_succ']
    rfl

theorem decimal_pos (n : Nat) : 0 < (decimal n).length := by
  rw [decimal]
  split <;> simp

theorem decimal_length (w n : Nat) (hw : 0 < w) (h : n < 10 ^ w) : (decimal n).length ≤ w := by
  induction w generalizing n with
  | zero => omega
  | succ w ih =>
    rw [decimal]
    split
    · simp
    · rename_i h10
      have hw' : 0 < w := by
        rcases Nat.eq_zero_or_pos w with rfl | h'
        · simp at h; omega
        · exact h'
      have := ih (n / 10) hw' (by rw [Nat.pow_succ] at h; omega)
      simp only [List.length_append, List.length_singleton]
      omega

theorem padded_fixed (w n : Nat) (hw : 0 < w) (h : n < 10 ^ w) : padded w n = fixed w n := by
  induction w generalizing n with
  | zero => omega
  | succ w ih =>
    by_cases h10 : n < 10
    · have e : decimal n = [digit n] := by rw [decimal, if_pos h10]
      have e0 : n / 10 = 0 := Nat.div_eq_of_lt h10
      rw [padded, e, fixed, e0, fixed_zero]
      rfl
    · have hw' : 0 < w := by
        rcases Nat.eq_zero_or_pos w with rfl | h'
        · simp at h; omega
        · exact h'
      have hlt : n / 10 < 10 ^ w := by rw [Nat.pow_succ] at h; omega
      have e : decimal n = decimal (n / 10) ++ [digit n] := by rw [decimal, if_neg h10]
      have := ih (n / 10) hw' hlt
      rw [fixed, ← this, padded, padded, e, ← List.append_assoc]
      simp

theorem digit_toNat (n : Nat) : (digit n).toNat = 48 + n % 10 := by
  have h : ∀ k : Fin 10, (Char.ofNat (48 + k.val)).toNat = 48 + k.val := by decide
  exact h ⟨n % 10, Nat.mod_lt _ (by omega)⟩

theorem strLt_irrefl (a : Str) : ¬ StrLt a a := by
  rw [strLt_iff, (Expr.cmpStr_eq a a).mpr rfl]
  simp

theorem strLt_append : ∀ (a b c d : Str), a.length = b.length →
    (StrLt (a ++ c) (b ++ d) ↔ StrLt a b ∨ (a = b ∧ StrLt c d))
  | [], [], c, d, _ => by
    simp only [List.nil_append, true_and]
    constructor
    · exact .inr
    · rintro (h | h)
      · exact absurd h (strLt_irrefl [])
      · exact h
  | [], _ :: _, _, _, h => by simp at h
  | _ :: _, [], _, _, h => by simp at h
  | x :: a, y :: b, c, d, h => by
    have ih := strLt_append a b c d (by simpa using h)
    unfold StrLt at ih ⊢
    simp only [List.cons_append, List.cons.injEq]
    constructor
    · intro h
      cases h with
      | rel h => exact .inl (.rel h)
      | cons h =>
        rcases ih.mp h with h | ⟨h, h'⟩
        · exact .inl (.cons h)
        · exact .inr ⟨⟨rfl, h⟩, h'⟩
    · rintro (h | ⟨⟨rfl, h1⟩, h'⟩)
      · cases h with
        | rel h => exact .rel h
        | cons h => exact .cons (ih.mpr (.inl h))
      · exact .cons (ih.mpr (.inr ⟨h1, h'⟩))

theorem strLt_single (a b : Char) : StrLt [a] [b] ↔ a.toNat < b.toNat := by
  unfold StrLt
  constructor
  · intro h
    cases h with
    | rel h => exact h
    | cons h => cases h
  · intro h
    exact .rel h

theorem fixed_inj (w a b : Nat) (ha : a < 10 ^ w) (hb : b < 10 ^ w) : fixed w a = fixed w b ↔ a = b := by
  induction w generalizing a b with
  | zero =>
    simp at ha hb
    subst ha hb
    simp
  | succ w ih =>
    rw [Nat.pow_succ] at ha hb
    have := ih (a / 10) (b / 10) (by omega) (by omega)
    simp only [fixed]
    constructor
    · intro h
      obtain ⟨h1, h2⟩ := List.append_inj' h rfl
      have h3 : (digit a).toNat = (digit b).toNat := by
        simp only [List.cons.injEq, and_true] at h2
        rw [h2]
      rw [digit_toNat, digit_toNat] at h3
      have := this.mp h1
      omega
    · rintro rfl
      rfl

theorem fixed_lt (w a b : Nat) (ha : a < 10 ^ w) (hb : b < 10 ^ w) : StrLt (fixed w a) (fixed w b) ↔ a < b := by
  induction w generalizing a b with
  | zero =>
    simp at ha hb
    subst ha hb
    exact ⟨fun h => absurd h (strLt_irrefl _), fun h => by omega⟩
  | succ w ih =>
    rw [Nat.pow_succ] at ha hb
    have := ih (a / 10) (b / 10) (by omega) (by omega)
    have hi := fixed_inj w (a / 10) (b / 10) (by omega) (by omega)
    simp only [fixed]
    rw [strLt_append _ _ _ _ (by rw [fixed_length, fixed_length]), this, hi, strLt_single, digit_toNat, digit_toNat]
    omega

end Sieve.Tests
