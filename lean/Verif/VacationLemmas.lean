import Verif.VacationModel
import Verif.TestsProps
import Mathlib.Data.List.TakeWhile

/-! # Lemmas on vacation -/

namespace Sieve.Vacation
open Sieve.Expr (Val)
open Sieve.Tests (Ext Field Parsed Str addressValues)

variable {F : Type}

/-! ## Case -/

theorem char_ext {c d : Char} (h : c.toNat = d.toNat) : c = d := by
  have := congrArg Char.ofNat h
  simpa using this

theorem lowerChar_toNat (c : Char) :
    (lowerChar c).toNat = if 65 ≤ c.toNat ∧ c.toNat ≤ 90 then c.toNat + 32 else c.toNat := by
  have h1 : ('A' ≤ c ∧ c ≤ 'Z') ↔ (65 ≤ c.toNat ∧ c.toNat ≤ 90) := Iff.rfl
  unfold lowerChar
  by_cases h : 'A' ≤ c ∧ c ≤ 'Z'
  · rw [if_pos h, if_pos (h1.mp h)]
    have := h1.mp h
    have hv : (c.toNat + 32).isValidChar := .inl (by omega)
    rw [Char.ofNat, dif_pos hv]
    rfl
  · rw [if_neg h, if_neg (fun k => h (h1.mpr k))]

theorem lowerChar_eq (c d : Char) : lowerChar c = lowerChar d ↔
    c = d ∨ (65 ≤ c.toNat ∧ c.toNat ≤ 90 ∧ d.toNat = c.toNat + 32)
      ∨ (65 ≤ d.toNat ∧ d.toNat ≤ 90 ∧ c.toNat = d.toNat + 32) := by
  constructor
  · intro h
    have h := congrArg Char.toNat h
    rw [lowerChar_toNat, lowerChar_toNat] at h
    by_cases hc : c = d
    · exact .inl hc
    · right
      have : c.toNat ≠ d.toNat := fun e => hc (char_ext e)
      split at h <;> split at h <;> omega
  · rintro (rfl | h | h)
    · rfl
    · refine char_ext ?_
      rw [lowerChar_toNat, lowerChar_toNat, if_pos ⟨h.1, h.2.1⟩, if_neg (by omega)]
      omega
    · refine char_ext ?_
      rw [lowerChar_toNat, lowerChar_toNat, if_neg (by omega), if_pos ⟨h.1, h.2.1⟩]
      omega

theorem lower_eq (a b : Str) : lower a = lower b ↔ List.Forall₂ (fun c d => lowerChar c = lowerChar d) a b := by
  unfold lower
  induction a generalizing b with
  | nil => cases b <;> simp
  | cons c cs ih =>
    cases b with
    | nil => simp
    | cons d ds => simp [ih]

theorem lower_lower (a : Str) : lower (lower a) = lower a := by
  unfold lower
  rw [List.map_map]
  refine List.map_congr_left fun c _ => ?_
  refine char_ext ?_
  simp only [Function.comp, lowerChar_toNat]
  split
  · rw [if_neg (by omega)]
  · rfl

theorem lower_append (a b : Str) : lower (a ++ b) = lower a ++ lower b := List.map_append

/-! ## The envelope -/

theorem scanEnvelope_cons (x : Ext F) (o : Bool) (n : Env) (v : Val F) (es : List (Env × Val F)) (s : Str × List Str) :
    scanEnvelope x o ((n, v) :: es) s = scanEnvelope x o es
      (if Tests.isEmpty v then s
      else
        match n with
        | .from => (lower (Tests.text x.flt v), s.2)
        | .to => if !o then (s.1, s.2 ++ [Tests.text x.flt v]) else s
        | .orcpt => if o then (s.1, s.2 ++ [Tests.text x.flt v]) else s
        | .misc _ => s) := by
  obtain ⟨fr, us⟩ := s
  rfl

theorem scanEnvelope_users (x : Ext F) (o : Bool) (u : Str) : ∀ (es : List (Env × Val F)) (s : Str × List Str),
    u ∈ (scanEnvelope x o es s).2 ↔
      u ∈ s.2 ∨ ∃ e ∈ es, Tests.isEmpty e.2 = false ∧ e.1 = (if o then Env.orcpt else Env.to) ∧ Tests.text x.flt e.2 = u
  | [], s => by simp [scanEnvelope]
  | (n, v) :: es, (fr, us) => by
    rw [scanEnvelope_cons, scanEnvelope_users x o u es]
    cases hv : Tests.isEmpty v
    · have e : ∀ t : Str, (u = t) = (t = u) := fun t => propext eq_comm
      cases n <;> cases o <;> simp [hv, or_assoc, e]
    · simp [hv]

theorem scanEnvelope_none (x : Ext F) (o : Bool) : ∀ (es : List (Env × Val F)) (s : Str × List Str),
    (∀ e ∈ es, e.1 = .from → Tests.isEmpty e.2 = true) → (scanEnvelope x o es s).1 = s.1
  | [], s, _ => rfl
  | (n, v) :: es, (fr, us), h => by
    rw [scanEnvelope_cons, scanEnvelope_none x o es _ fun e he => h e (List.mem_cons_of_mem _ he)]
    cases hv : Tests.isEmpty v
    · cases n with
      | «from» => have := h _ List.mem_cons_self rfl; simp [hv] at this
      | _ => cases o <;> simp
    · simp

theorem scanEnvelope_append (x : Ext F) (o : Bool) : ∀ (a b : List (Env × Val F)) (s : Str × List Str),
    scanEnvelope x o (a ++ b) s = scanEnvelope x o b (scanEnvelope x o a s)
  | [], _, _ => rfl
  | (n, v) :: a, b, (fr, us) => by
    rw [List.cons_append, scanEnvelope_cons, scanEnvelope_cons, scanEnvelope_append]

theorem scanEnvelope_last (x : Ext F) (o : Bool) (a b : List (Env × Val F)) (v : Val F) (s : Str × List Str)
    (hv : Tests.isEmpty v = false) (h : ∀ e ∈ b, e.1 = .from → Tests.isEmpty e.2 = true) :
    (scanEnvelope x o (a ++ (.from, v) :: b) s).1 = lower (Tests.text x.flt v) := by
  rw [scanEnvelope_append]
  generalize scanEnvelope x o a s = s'
  obtain ⟨fr, us⟩ := s'
  rw [scanEnvelope_cons, scanEnvelope_none x o b _ h]
  simp [hv]

/-- There is a last sender, or none at all. -/
theorem last_sender : ∀ es : List (Env × Val F),
    (∀ e ∈ es, e.1 = .from → Tests.isEmpty e.2 = true) ∨
      ∃ a v b, es = a ++ (.from, v) :: b ∧ Tests.isEmpty v = false ∧
        ∀ e ∈ b, e.1 = .from → Tests.isEmpty e.2 = true
  | [] => .inl (by simp)
  | e :: es => by
    rcases last_sender es with h | ⟨a, v, b, rfl, h1, h2⟩
    · by_cases h1 : e.1 = .from ∧ Tests.isEmpty e.2 = false
      · exact .inr ⟨[], e.2, es, by rw [← h1.1]; rfl, h1.2, h⟩
      · left
        intro e' he hf
        rcases List.mem_cons.mp he with rfl | he
        · cases h2 : Tests.isEmpty e'.2
          · exact absurd ⟨hf, h2⟩ h1
          · rfl
        · exact h e' he hf
    · exact .inr ⟨e :: a, v, b, rfl, h1, h2⟩

/-! ## The headers -/

def isList : Hd → Bool
  | .listArchive | .listHelp | .listId | .listOwner | .listPost | .listSubscribe | .listUnsubscribe => true
  | _ => false

def isRcpt : Hd → Bool
  | .to | .cc | .bcc | .resentTo | .resentBcc | .resentCc => true
  | _ => false

/-- The header does not forbid a reply. -/
def fine (x : Ext F) (n : Hd) (f : Field) : Bool :=
  match n with
  | .other name =>
    if same name "Auto-Submitted".toList then
      match asText f.parsed with
      | none => false
      | some v => same v "no".toList
    else if same name "X-Auto-Response-Suppress".toList then
      match asText f.parsed with
      | none => true
      | some v => !(splitComma (lower v)).any fun w => ["all".toList, "oof".toList].contains (trim x w)
    else if same name "Precedence".toList then
      match asText f.parsed with
      | none => true
      | some v => !same v "bulk".toList
    else true
  | n => !isList n

/-- The header names one of the user's addresses. -/
def names (x : Ext F) (users : List Str) (n : Hd) (f : Field) : Bool :=
  isRcpt n && (addressValues x .all f).any fun a => users.any fun u => same u a

theorem scanHeaders_cons (x : Ext F) (users : List Str) (n : Hd) (f : Field) (hs : List (Hd × Field)) (b : Bool)
    (r : Nat) : scanHeaders x users ((n, f) :: hs) (b, r) =
      if fine x n f then scanHeaders x users hs (b || names x users n f, r + if n = .received then 1 else 0)
      else none := by
  cases n with
  | other name =>
    rw [scanHeaders]
    simp only [fine, names, isRcpt, Bool.false_and, Bool.or_false, reduceCtorEq, if_false, Nat.add_zero]
    by_cases h1 : same name "Auto-Submitted".toList = true
    · rw [if_pos h1, if_pos h1]
      cases asText f.parsed with
      | none => rfl
      | some v => cases h : same v "no".toList <;> simp only [h] <;> rfl
    · rw [if_neg h1, if_neg h1]
      by_cases h2 : same name "X-Auto-Response-Suppress".toList = true
      · rw [if_pos h2, if_pos h2]
        cases asText f.parsed with
        | none => rfl
        | some v =>
          cases h : ((splitComma (lower v)).any fun w => ["all".toList, "oof".toList].contains (trim x w)) <;>
            simp only [h] <;> rfl
      · rw [if_neg h2, if_neg h2]
        by_cases h3 : same name "Precedence".toList = true
        · rw [if_pos h3, if_pos h3]
          cases asText f.parsed with
          | none => rfl
          | some v => cases h : same v "bulk".toList <;> simp only [h] <;> rfl
        · rw [if_neg h3, if_neg h3]
          rfl
  | _ => cases b <;> simp [scanHeaders, fine, names, isRcpt, isList]

theorem scanHeaders_iff (x : Ext F) (users : List Str) : ∀ (hs : List (Hd × Field)) (b : Bool) (r : Nat)
    (b' : Bool) (r' : Nat), scanHeaders x users hs (b, r) = some (b', r') ↔
      (∀ h ∈ hs, fine x h.1 h.2 = true) ∧ b' = (b || hs.any fun h => names x users h.1 h.2)
        ∧ r' = r + hs.countP fun h => h.1 = .received
  | [], b, r, b', r' => by
    simp only [scanHeaders, Option.some.injEq, Prod.mk.injEq, List.not_mem_nil, false_imp_iff, implies_true,
      List.any_nil, Bool.or_false, List.countP_nil, Nat.add_zero, true_and]
    exact ⟨fun h => ⟨h.1.symm, h.2.symm⟩, fun h => ⟨h.1.symm, h.2.symm⟩⟩
  | (n, f) :: hs, b, r, b', r' => by
    rw [scanHeaders_cons]
    cases hf : fine x n f
    · simp [hf]
    · rw [if_pos rfl, scanHeaders_iff x users hs]
      simp only [List.forall_mem_cons, hf, true_and, List.any_cons, Bool.or_assoc, List.countP_cons]
      have : (r + if n = Hd.received then 1 else 0) + List.countP (fun h => decide (h.1 = Hd.received)) hs
          = r + (List.countP (fun h => decide (h.1 = Hd.received)) hs + if decide (n = Hd.received) = true then 1 else 0) := by
        by_cases hn : n = .received <;> simp [hn] <;> omega
      rw [this]

/-! ## Lists of words -/

/-- A word between commas. -/
def Word (w v : Str) : Prop :=
  ∃ a b, v = a ++ w ++ b ∧ ',' ∉ w ∧ (a = [] ∨ ∃ a', a = a' ++ [',']) ∧ (b = [] ∨ ∃ b', b = ',' :: b')

theorem splitComma_ne (s : Str) : splitComma s ≠ [] := by
  cases s with
  | nil => simp [splitComma]
  | cons c cs =>
    rw [splitComma]
    split
    · simp
    · split <;> simp

/-- The first word, and the rest. -/
theorem splitComma_spec : ∀ s : Str,
    (',' ∉ s ∧ splitComma s = [s]) ∨
      ∃ w r, s = w ++ ',' :: r ∧ ',' ∉ w ∧ splitComma s = w :: splitComma r
  | [] => .inl ⟨by simp, rfl⟩
  | c :: cs => by
    by_cases hc : c = ','
    · subst hc
      exact .inr ⟨[], cs, rfl, by simp, by rw [splitComma, if_pos rfl]⟩
    · rcases splitComma_spec cs with ⟨h1, h2⟩ | ⟨w, r, rfl, h1, h2⟩
      · left
        refine ⟨by simp [h1, eq_comm, hc], ?_⟩
        rw [splitComma, if_neg hc, h2]
      · right
        refine ⟨c :: w, r, rfl, by simp [h1, eq_comm, hc], ?_⟩
        rw [splitComma, if_neg hc, h2]

theorem append_comma {a b c d : Str} (h : a ++ ',' :: b = c ++ ',' :: d) (ha : ',' ∉ a) (hc : ',' ∉ c) :
    a = c ∧ b = d := by
  induction a generalizing c with
  | nil =>
    cases c with
    | nil => simpa using h
    | cons e c =>
      simp only [List.nil_append, List.cons_append, List.cons.injEq] at h
      rw [← h.1] at hc
      simp at hc
  | cons e a ih =>
    cases c with
    | nil =>
      simp only [List.nil_append, List.cons_append, List.cons.injEq] at h
      rw [h.1] at ha
      simp at ha
    | cons e' c =>
      simp only [List.cons_append, List.cons.injEq] at h
      obtain ⟨h1, h2⟩ := ih h.2 (fun k => ha (List.mem_cons_of_mem _ k)) (fun k => hc (List.mem_cons_of_mem _ k))
      exact ⟨by rw [h.1, h1], h2⟩

theorem mem_splitComma (w : Str) : ∀ (n : Nat) (s : Str), s.length ≤ n → (w ∈ splitComma s ↔ Word w s) := by
  intro n
  induction n with
  | zero =>
    intro s hs
    have : s = [] := List.length_eq_zero_iff.mp (by omega)
    subst this
    simp only [splitComma, List.mem_singleton]
    constructor
    · rintro rfl
      exact ⟨[], [], rfl, by simp, .inl rfl, .inl rfl⟩
    · rintro ⟨a, b, h, _⟩
      simp only [List.nil_eq, List.append_eq_nil_iff] at h
      exact h.1.2
  | succ n ih =>
    intro s hs
    rcases splitComma_spec s with ⟨h1, h2⟩ | ⟨u, r, rfl, h1, h2⟩
    · rw [h2, List.mem_singleton]
      constructor
      · rintro rfl
        exact ⟨[], [], by simp, h1, .inl rfl, .inl rfl⟩
      · rintro ⟨a, b, rfl, _, ha, hb⟩
        have ha : a = [] := by
          rcases ha with ha | ⟨a', rfl⟩
          · exact ha
          · simp at h1
        have hb : b = [] := by
          rcases hb with hb | ⟨b', rfl⟩
          · exact hb
          · simp at h1
        subst ha hb
        simp
    · rw [h2, List.mem_cons, ih r (by simp at hs; omega)]
      constructor
      · rintro (rfl | ⟨a, b, rfl, h3, h4, h5⟩)
        · exact ⟨[], ',' :: r, by simp, h1, .inl rfl, .inr ⟨r, rfl⟩⟩
        · refine ⟨u ++ ',' :: a, b, by simp, h3, .inr ?_, h5⟩
          rcases h4 with rfl | ⟨a', rfl⟩
          · exact ⟨u, rfl⟩
          · exact ⟨u ++ ',' :: a', by simp⟩
      · rintro ⟨a, b, he, h3, h4, h5⟩
        rcases h4 with rfl | ⟨a', rfl⟩
        · left
          rcases h5 with rfl | ⟨b', rfl⟩
          · simp only [List.nil_append, List.append_nil] at he
            rw [← he] at h3
            simp at h3
          · exact (append_comma (by simpa using he) h1 h3).1.symm
        · right
          -- the first comma is in `a'` or behind it
          by_cases hm : ',' ∈ a'
          · obtain ⟨p, q, rfl, hp⟩ : ∃ p q, a' = p ++ ',' :: q ∧ ',' ∉ p := by
              rcases splitComma_spec a' with ⟨k, _⟩ | ⟨p, q, k1, k2, _⟩
              · exact absurd hm k
              · exact ⟨p, q, k1, k2⟩
            have := (append_comma (a := u) (b := r) (c := p) (d := q ++ [','] ++ w ++ b) (by simpa using he) h1 hp).2
            refine ⟨q ++ [','], b, this, h3, .inr ⟨q, rfl⟩, h5⟩
          · have := (append_comma (a := u) (b := r) (c := a') (d := w ++ b) (by simpa using he) h1 hm).2
            exact ⟨[], b, by simpa using this, h3, .inl rfl, h5⟩

/-- Trimming leaves a word that does not begin or end with white space exactly if it is surrounded by white
space only. -/
theorem trim_eq (x : Ext F) (w k : Str) (hk : k ≠ []) (hh : ∀ c ∈ k, x.ws c = false) :
    trim x w = k ↔ ∃ a b, w = a ++ k ++ b ∧ (∀ c ∈ a, x.ws c = true) ∧ ∀ c ∈ b, x.ws c = true := by
  have dropAll : ∀ (a s : Str), (∀ c ∈ a, x.ws c = true) → (a ++ s).dropWhile x.ws = s.dropWhile x.ws := by
    intro a s ha
    induction a with
    | nil => rfl
    | cons c cs ih =>
      rw [List.cons_append, List.dropWhile_cons_of_pos (ha c (by simp)), ih fun d hd => ha d (by simp [hd])]
  have dropNone : ∀ (s t : Str), s ≠ [] → (∀ c ∈ s, x.ws c = false) → (s ++ t).dropWhile x.ws = s ++ t := by
    intro s t hs h
    cases s with
    | nil => exact absurd rfl hs
    | cons c cs => rw [List.cons_append, List.dropWhile_cons_of_neg (by simp [h c (by simp)])]
  constructor
  · intro h
    unfold trim at h
    have h1 := (List.takeWhile_append_dropWhile (p := x.ws) (l := w)).symm
    have h2 := (List.takeWhile_append_dropWhile (p := x.ws) (l := (w.dropWhile x.ws).reverse)).symm
    have h3 := congrArg List.reverse h2
    rw [List.reverse_reverse, List.reverse_append, h] at h3
    refine ⟨w.takeWhile x.ws, ((w.dropWhile x.ws).reverse.takeWhile x.ws).reverse, ?_, ?_, ?_⟩
    · rw [List.append_assoc, ← h3]; exact h1
    · intro c hc; exact List.mem_takeWhile_imp hc
    · intro c hc; exact List.mem_takeWhile_imp (List.mem_reverse.mp hc)
  · rintro ⟨a, b, rfl, ha, hb⟩
    unfold trim
    rw [List.append_assoc, dropAll a _ ha, dropNone k b hk hh, List.reverse_append,
      dropAll b.reverse _ (fun c hc => hb c (List.mem_reverse.mp hc))]
    have := dropNone k.reverse [] (by simpa using hk) (fun c hc => hh c (List.mem_reverse.mp hc))
    simp only [List.append_nil] at this
    rw [this, List.reverse_reverse]

end Sieve.Vacation
