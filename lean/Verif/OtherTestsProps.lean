import Verif.OtherTestsLemmas

/-!
# Properties of the remaining tests

C69: `exists` and `size`.
C70: `duplicate`.
C71: `spamtest` and `virustest`.
C72: `metadata` and `metadataexists`.
C73: `valid_notify_method`, `notify_method_capability`, `valid_ext_list` and `ihave`.
C74: `date` and `currentdate`.
C75: the texts of the parts of a date.
-/

namespace Sieve.Tests
open Sieve.Expr (Val Flt Ieee)

variable {F N V : Type}

/-! ## C69: exists and size -/

section
variable [DecidableEq N]

/-- There is a header called `n` in one of the parts. -/
def Occurs (parts : List (Mime.Part N V)) (ids : List Nat) (n : N) : Prop :=
  ∃ id ∈ ids, ∃ p, parts[id]? = some p ∧ ∃ h ∈ p.headers, h.name = n

/-- C69: `exists` is true exactly if each of the given names that can be a header name is the name of a header of
the current part (with `:anychild`, of the current part or one inside it, not necessarily the same for all names). -/
theorem exists_test (parts : List (Mime.Part N V)) (t : Mime.Tree) (ht : Mime.Represents parts t)
    (given : List (Option N)) (anychild isNot : Bool) (fuel : Nat) (hfuel : t.preorder.length < fuel) :
    ∃ b, existsTest parts t.id given anychild isNot fuel = some (b ^^ isNot) ∧
      (b = true ↔ ∀ n, some n ∈ given → Occurs parts (searched anychild t) n) := by
  refine ⟨_, by rw [existsTest, visit_searched parts t ht anychild fuel hfuel]; rfl, ?_⟩
  rw [existsGo_iff _ _ _ (by simp), replicate_zip]
  simp only [List.forall_mem_map, Bool.false_eq_true, false_or, List.mem_filterMap, id]
  have hroot : ∃ p, parts[t.id]? = some p := by
    cases ht with
    | leaf h => exact ⟨_, h⟩
    | multi h => exact ⟨_, h⟩
  have hmem : t.id ∈ searched anychild t := by
    unfold searched
    split
    · cases t; simp [Mime.Tree.preorder, Mime.Tree.id]
    · simp
  constructor
  · rintro ⟨_, h⟩ n hn
    obtain ⟨hs, ⟨i, hi, hp⟩, h2⟩ := h n ⟨some n, hn, rfl⟩
    cases hpi : parts[i]? with
    | none => rw [hpi] at hp; simp at hp
    | some p =>
      rw [hpi, Option.map_some, Option.some_inj] at hp
      rw [← hp, List.mem_map] at h2
      obtain ⟨h', h3, h4⟩ := h2
      exact ⟨i, hi, p, hpi, h', h3, h4⟩
  · intro h
    refine ⟨?_, ?_⟩
    · obtain ⟨p, hp⟩ := hroot
      intro he
      have : (p.headers.map (·.name)) ∈
          (searched anychild t).filterMap fun i => parts[i]?.map fun p => p.headers.map (·.name) :=
        List.mem_filterMap.mpr ⟨t.id, hmem, by rw [hp]; rfl⟩
      rw [he] at this
      simp at this
    · rintro n ⟨o, ho, rfl⟩
      obtain ⟨i, hi, p, hp, h', h3, h4⟩ := h n ho
      exact ⟨p.headers.map (·.name), ⟨i, hi, by rw [hp]; rfl⟩, List.mem_map.mpr ⟨h', h3, h4⟩⟩

/-- C69 does not hold for all given names: a name that cannot be a header name is ignored, so that `exists` with only
such names is true, though no header has such a name. -/
theorem exists_invalid_name (parts : List (Mime.Part N V)) (t : Mime.Tree) (ht : Mime.Represents parts t)
    (anychild : Bool) (fuel : Nat) (hfuel : t.preorder.length < fuel) :
    existsTest parts t.id [none] anychild false fuel = some true := by
  obtain ⟨b, h, hb⟩ := exists_test parts t ht [none] anychild false fuel hfuel
  rw [h, hb.mpr (by simp)]
  rfl
end

example : existsTest exParts 0 [some 2, none, some 1] false false 3 = some true := by rfl
example : existsTest exParts 0 [some 2, some 3] true false 3 = some false := by rfl
example : Occurs exParts (searched false (.node 0 [])) 2 :=
  ⟨0, by simp [searched, Mime.Tree.id], _, rfl, ⟨2, ⟨.other, false, [97, 98]⟩⟩, by simp, rfl⟩

/-- C69: `size :over` is true exactly for messages larger than the limit and `size :under` exactly for smaller ones; a
message of the very size is neither (RFC 5228 section 5.9). -/
theorem size_test (limit size : Nat) (isNot : Bool) :
    (∃ b, sizeTest true limit size isNot = (b ^^ isNot) ∧ (b = true ↔ size > limit)) ∧
    (∃ b, sizeTest false limit size isNot = (b ^^ isNot) ∧ (b = true ↔ size < limit)) ∧
    (size = limit → sizeTest true limit size false = false ∧ sizeTest false limit size false = false) := by
  refine ⟨⟨_, by simp [sizeTest]; rfl, by simp⟩, ⟨_, by simp [sizeTest]; rfl, by simp⟩, ?_⟩
  rintro rfl
  simp [sizeTest]

example : sizeTest true 10 11 false = true ∧ sizeTest false 10 11 false = false := by decide

/-! ## C70: duplicate -/

/-- The id in a field. -/
def FieldId (x : Ext F) (parseId : List UInt8 → Option Str) (f : Field) (i : Str) : Prop :=
  i ≠ [] ∧
    ((f.added = false ∧ parseId f.raw = some i) ∨
      (f.added = true ∧ ∃ t, f.parsed = .text t ∧ parseId (x.utf8 (t ++ ['\n'])) = some i))

theorem fieldId_iff (x : Ext F) (parseId : List UInt8 → Option Str) (f : Field) (i : Str) :
    fieldId x.utf8 parseId f = some i ↔ FieldId x parseId f i := by
  unfold fieldId FieldId
  rw [Option.filter_eq_some_iff, and_comm]
  simp only [Bool.not_eq_true', List.isEmpty_eq_false_iff]
  refine and_congr_right fun _ => ?_
  cases f.added with
  | false => simp
  | true =>
    simp only [Bool.not_true, Bool.false_eq_true, if_false, Bool.true_eq_false, false_and, true_and, false_or]
    cases f.parsed <;> simp

section
variable [DecidableEq N]

/-- The fields called `n` in the given parts, in order. -/
def fieldsCalled (parts : List (Mime.Part N Field)) (ids : List Nat) (n : N) : List Field :=
  ids.flatMap fun id =>
    match parts[id]? with
    | none => []
    | some p => (p.headers.filter fun h => h.name = n).map (·.value)

theorem filter_zipIdx (n : N) (l : List (Mime.Header N V)) (k : Nat) :
    ((l.zipIdx k).filter fun h => h.1.name = n).map (·.1) = l.filter fun h => h.name = n := by
  induction l generalizing k with
  | nil => rfl
  | cons a as ih =>
    simp only [List.zipIdx_cons, List.filter_cons]
    split <;> simp [ih]

theorem found_called (parts : List (Mime.Part N Field)) (t : Mime.Tree) (ht : Mime.Represents parts t) (n : N)
    (anychild : Bool) (fuel : Nat) (hfuel : t.preorder.length < fuel) :
    ∃ found, Mime.findHeaders parts t.id [n] none anychild fuel = some found ∧
      found.map (·.1.value) = fieldsCalled parts (searched anychild t) n := by
  refine ⟨_, by rw [Mime.findHeaders, visit_searched parts t ht anychild fuel hfuel]; rfl, ?_⟩
  rw [List.map_flatMap, fieldsCalled]
  congr 1
  funext i
  cases parts[i]? with
  | none => rfl
  | some p =>
    simp only [Mime.selectHeaders, List.flatMap_cons, List.flatMap_nil, List.append_nil, List.map_map]
    rw [← filter_zipIdx n p.headers 0, List.map_map]
    rfl

/-- The id that `duplicate` tracks: with `:header` the first id in a field of that name in the current part or inside
it; with `:uniqueid` the given text; otherwise the id of the message. -/
def Tracked (x : Ext F) (parseId : List UInt8 → Option Str) (messageId : Option Str) (fields : N → List Field) :
    DupMatch F N → Str → Prop
  | .header none, _ => False
  | .header (some n), i => ∃ before f after, fields n = before ++ f :: after ∧ FieldId x parseId f i ∧
      ∀ g ∈ before, ∀ j, ¬ FieldId x parseId g j
  | .uniqueId v, i => i = text x.flt v ∧ i ≠ []
  | .default, i => messageId = some i ∧ i ≠ []

theorem tracked_iff (x : Ext F) (parseId : List UInt8 → Option Str) (messageId : Option Str) (fields : N → List Field)
    (m : DupMatch F N) (found : List Field) (hf : ∀ n, m = .header (some n) → found = fields n) (i : Str) :
    Tracked x parseId messageId fields m i ↔ i ≠ [] ∧ trackedId x parseId messageId found m = i := by
  match m with
  | .header none => simp only [Tracked, trackedId, false_iff]; rintro ⟨h, rfl⟩; exact h rfl
  | .uniqueId v => simp only [Tracked, trackedId]; exact ⟨fun ⟨a, b⟩ => ⟨b, a.symm⟩, fun ⟨a, b⟩ => ⟨b.symm, a⟩⟩
  | .default =>
    simp only [Tracked, trackedId]
    cases messageId with
    | none => simp
    | some j => simp [and_comm]
  | .header (some n) =>
    simp only [Tracked, trackedId]
    rw [← hf n rfl]
    clear hf
    constructor
    · rintro ⟨before, f, after, rfl, h1, h2⟩
      refine ⟨h1.1, ?_⟩
      have e : before.findSome? (fieldId x.utf8 parseId) = none := by
        rw [List.findSome?_eq_none_iff]
        intro g hg
        cases h : fieldId x.utf8 parseId g with
        | none => rfl
        | some j => exact absurd ((fieldId_iff ..).mp h) (h2 g hg j)
      rw [List.findSome?_append, e, Option.none_or, List.findSome?_cons, (fieldId_iff x parseId f i).mpr h1]
    · rintro ⟨hne, h⟩
      cases hs : found.findSome? (fieldId x.utf8 parseId) with
      | none => rw [hs] at h; exact absurd h.symm hne
      | some j =>
        rw [hs] at h
        simp only at h
        subst h
        obtain ⟨before, f, after, h1, h2, h3⟩ := List.findSome?_eq_some_iff.mp hs
        refine ⟨before, f, after, h1, (fieldId_iff ..).mp h2, fun g hg k hk => ?_⟩
        have := h3 g hg
        rw [(fieldId_iff x parseId g k).mpr hk] at this
        cases this

/-- C70: `duplicate` asks the host about the id to be tracked, preceded by the handle, with the given expiry time or the
default, and its result is the answer (negated by `not`); without an id the message is not a duplicate and nothing is
asked. -/
theorem duplicate_test (x : Ext F) (parseId : List UInt8 → Option Str) (messageId : Option Str)
    (parts : List (Mime.Part N Field)) (t : Mime.Tree) (ht : Mime.Represents parts t) (fuel : Nat)
    (hfuel : t.preorder.length < fuel) (m : DupMatch F N) (handle : Option (Val F)) (seconds : Option Nat) (deflt : Nat)
    (last isNot : Bool) :
    (∃ i, Tracked x parseId messageId (fieldsCalled parts t.preorder) m i ∧
      ∃ q, duplicateExec x parseId messageId parts t.id fuel m handle seconds deflt last isNot = some (.ask q isNot) ∧
        (∀ h, handle = some h → q.id = text x.flt h ++ i) ∧ (handle = none → q.id = i) ∧
        (∀ s, seconds = some s → q.expiry = s) ∧ (seconds = none → q.expiry = deflt) ∧ q.last = last) ∨
    ((∀ i, ¬ Tracked x parseId messageId (fieldsCalled parts t.preorder) m i) ∧
      duplicateExec x parseId messageId parts t.id fuel m handle seconds deflt last isNot = some (.bool isNot)) := by
  obtain ⟨found, hfound, hexec⟩ : ∃ found : List Field,
      (∀ n, m = .header (some n) → found = fieldsCalled parts t.preorder n) ∧
      duplicateExec x parseId messageId parts t.id fuel m handle seconds deflt last isNot =
        some (duplicateTest x parseId messageId found m handle seconds deflt last isNot) := by
    match m with
    | .header (some n) =>
      obtain ⟨found, h1, h2⟩ := found_called parts t ht n true fuel hfuel
      refine ⟨found.map (·.1.value), ?_, by rw [duplicateExec, h1]; rfl⟩
      rintro _ ⟨⟩
      exact h2
    | .header none => exact ⟨[], by simp, rfl⟩
    | .uniqueId v => exact ⟨[], by simp, rfl⟩
    | .default => exact ⟨[], by simp, rfl⟩
  have htr := tracked_iff x parseId messageId (fieldsCalled parts t.preorder) m found hfound
  rw [hexec]
  generalize htid : trackedId x parseId messageId found m = i at htr
  unfold duplicateTest
  simp only [htid]
  match i with
  | [] =>
    right
    refine ⟨fun j hj => ?_, by simp⟩
    obtain ⟨h1, h2⟩ := (htr j).mp hj
    exact h1 h2.symm
  | c :: cs =>
    left
    refine ⟨c :: cs, (htr _).mpr ⟨by simp, rfl⟩, _, rfl, ?_, ?_, ?_, ?_, rfl⟩
    · rintro h rfl; rfl
    · rintro rfl; rfl
    · rintro h rfl; rfl
    · rintro rfl; rfl
end

/-- Different handles do not keep ids apart, against RFC 7352 section 3.2: handle and id are joined without a
separator. -/
theorem handles_overlap (x : Ext F) (parseId : List UInt8 → Option Str) (messageId : Option Str) (deflt : Nat) :
    ∃ (h₁ h₂ i₁ i₂ : Str), h₁ ≠ h₂ ∧ i₁ ≠ i₂ ∧
      duplicateTest (N := N) x parseId messageId [] (.uniqueId (.str i₁)) (some (.str h₁)) none deflt false false =
        duplicateTest (N := N) x parseId messageId [] (.uniqueId (.str i₂)) (some (.str h₂)) none deflt false false :=
  ⟨['a'], ['a', 'b'], ['b', 'c'], ['c'], by decide, by decide, rfl⟩

example : duplicateExec exExt (fun b => some (b.map fun u => Char.ofNat u.toNat)) none exParts 0 3 (.header (some 1))
    (some (.str "h".toList)) none 60 true false = some (.ask ⟨"h12".toList, 60, true⟩ false) := by rfl
example : Tracked exExt (fun b => some (b.map fun u => Char.ofNat u.toNat)) none (fieldsCalled exParts [0])
    (.header (some 1)) "12".toList :=
  ⟨[], _, _, rfl, ⟨by decide, .inl ⟨rfl, rfl⟩⟩, by simp⟩
example : duplicateExec (N := Nat) exExt (fun _ => none) none exParts 0 3 .default none none 60 true true =
    some (.bool true) := by rfl

/-! ## C71: spamtest and virustest -/

/-- C71: the number shown for a status: 0 exactly if the message was not tested, 1 exactly if it is ham, 10 exactly if it
is spam, from 2 to 9 in between; with `:percent` 0 if it was not tested or is ham, 100 if it is spam, from 1 to 100 in
between. -/
theorem spam_range (A : Flt F) (B : Flt2 F) (s : Spam F) :
    (s.number A B = 0 ↔ s = .unknown) ∧ (s.number A B = 1 ↔ s = .ham) ∧ (s.number A B = 10 ↔ s = .spam) ∧
    ((∃ p, s = .maybeSpam p) ↔ 2 ≤ s.number A B ∧ s.number A B ≤ 9) ∧
    (s.percentage A B = 0 ↔ s = .unknown ∨ s = .ham) ∧ (s = .spam → s.percentage A B = 100) ∧
    ((∃ p, s = .maybeSpam p) → 1 ≤ s.percentage A B ∧ s.percentage A B ≤ 100) := by
  have hc : ∀ n lo hi, lo ≤ hi → lo ≤ clamp n lo hi ∧ clamp n lo hi ≤ hi := by
    intro n lo hi h
    unfold clamp
    split <;> [skip; split] <;> omega
  cases s with
  | maybeSpam p =>
    have h1 := hc (B.toInt (A.mul p (A.ofInt 10))) 2 9 (by omega)
    have h2 := hc (B.toInt (B.ceil (A.mul p (A.ofInt 100)))) 1 100 (by omega)
    simp only [Spam.number, Spam.percentage, reduceCtorEq, iff_false, or_false, false_implies, true_and]
    refine ⟨by omega, by omega, by omega, ⟨fun _ => h1, fun _ => ⟨p, rfl⟩⟩, by omega, fun _ => h2⟩
  | _ => simp [Spam.number, Spam.percentage]

/-- C71: a score that the host gives as a number from 1 to 10 is shown as this number (assuming that the floating point
numbers 0.2, …, 0.9 times 10 give 2, …, 9), any other as 0, not tested. -/
theorem spam_roundtrip (A : Flt F) (B : Flt2 F)
    (h : ∀ n : Nat, 2 ≤ n → n ≤ 9 → B.toInt (A.mul (A.div (A.ofInt n) (A.ofInt 10)) (A.ofInt 10)) = n) (n : Nat) :
    (Spam.ofNumber A n).number A B = if 1 ≤ n ∧ n ≤ 10 then (n : Int) else 0 := by
  unfold Spam.ofNumber
  by_cases h1 : n = 1
  · subst h1; rfl
  by_cases h2 : 2 ≤ n ∧ n ≤ 9
  · have := h n h2.1 h2.2
    rw [if_neg h1, if_pos h2, if_pos (by omega)]
    simp only [Spam.number, this, clamp]
    split <;> [skip; split] <;> omega
  by_cases h3 : n = 10
  · subst h3; rfl
  · rw [if_neg h1, if_neg h2, if_neg h3, if_neg (by omega)]
    rfl

/-- C71: a larger fraction of spam is not shown as a smaller number. -/
theorem spam_monotone (A : Flt F) (B : Flt2 F) (le : F → F → Prop) (p q : F) (hpq : le p q)
    (hmul : ∀ a b, le a b → ∀ n : Int, 0 < n → le (A.mul a (A.ofInt n)) (A.mul b (A.ofInt n)))
    (hint : ∀ a b, le a b → B.toInt a ≤ B.toInt b) (hceil : ∀ a b, le a b → le (B.ceil a) (B.ceil b)) :
    (Spam.maybeSpam p).number A B ≤ (Spam.maybeSpam q).number A B ∧
    (Spam.maybeSpam p).percentage A B ≤ (Spam.maybeSpam q).percentage A B := by
  have hc : ∀ a b lo hi : Int, lo ≤ hi → a ≤ b → clamp a lo hi ≤ clamp b lo hi := by
    intro a b lo hi h1 h2
    unfold clamp
    split <;> [skip; split] <;> split <;> [skip; split; skip; split; skip; split] <;> omega
  exact ⟨hc _ _ _ _ (by omega) (hint _ _ (hmul _ _ hpq _ (by omega))),
    hc _ _ _ _ (by omega) (hint _ _ (hceil _ _ (hmul _ _ hpq _ (by omega))))⟩

/-- C71: the six statuses of `virustest` are shown as the numbers from 0 to 5 (RFC 5235 section 3.2), and given as them. -/
theorem virus_roundtrip (n : Nat) (s : Virus) :
    (Virus.ofNumber n).number = (if n ≤ 5 then (n : Int) else 0) ∧ 0 ≤ s.number ∧ s.number ≤ 5 ∧
    Virus.ofNumber s.number.toNat = s := by
  refine ⟨?_, ?_⟩
  · match n with
    | 0 | 1 | 2 | 3 | 4 | 5 => rfl
    | n + 6 =>
      rw [if_neg (by omega)]
      rfl
  · cases s <;> decide

/-- C71: the tests other than `:count` compare the number shown with the value. -/
theorem status_test {x : Ext F} (hx : x.Ok) (B : Flt2 F) (s : Spam F) (v : Virus) (percent isNot : Bool) (c : Comparator)
    (m : Match) (hm : ∀ r, m ≠ .count r) (value : Val F)
    (hs : ∀ n : Int, Charwise x c m (text x.flt (.int n))) :
    (∃ b caps, spamTest x B s percent c m value isNot = ⟨.bool (b ^^ isNot), caps⟩ ∧
      (b = true ↔
        Holds x c m (.val (.int (if percent = true then s.percentage x.flt B else s.number x.flt B))) (.val value))) ∧
    (∃ b caps, virusTest x B v c m value isNot = ⟨.bool (b ^^ isNot), caps⟩ ∧
      (b = true ↔ Holds x c m (.val (.int v.number)) (.val value))) := by
  have key : ∀ known status, ∃ b caps, statusTest x B known status c m value isNot = ⟨.bool (b ^^ isNot), caps⟩ ∧
      (b = true ↔ Holds x c m (.val (.int status)) (.val value)) := by
    intro known status
    refine ⟨(attempt x c m (.val (.int status)) (.val value) []).2,
      (attempt x c m (.val (.int status)) (.val value) []).1, ?_, verdict_iff hx c m _ _ (hs status)⟩
    cases m with
    | count r => exact absurd rfl (hm r)
    | _ => rfl
  exact ⟨key _ _, key _ _⟩

/-- The comparison made by `:count`. -/
theorem statusTest_count {x : Ext F} (B : Flt2 F) (known isNot : Bool) (status : Int) (c : Comparator)
    (r : Rel) (value : Val F) (k : Int) (hk : number x value = .int k) (hk1 : k ≠ 1)
    (hx : x.Ok) (hzero : ∀ k : Int, x.flt.cmp x.flt.zero (x.flt.ofInt k) = some (Expr.cmpInt 0 k))
    (hone : ∀ k : Int, x.flt.cmp B.onePointOne (x.flt.ofInt k) = some (if k ≤ 1 then .gt else .lt)) :
    ∃ b, statusTest x B known status c (.count r) value isNot = ⟨.bool (b ^^ isNot), []⟩ ∧
      (b = true ↔ NumSat x.flt (.int (if known = true then 1 else 0)) (.int k) r) := by
  refine ⟨_, rfl, ?_⟩
  rw [relNum_iff hx.ieee, hk]
  have e : (Expr.Num.flt (if known = true then B.onePointOne else x.flt.zero)).cmp x.flt (.int k) =
      (Expr.Num.int (if known = true then 1 else 0)).cmp x.flt (.int k) := by
    cases known with
    | false => simpa [Expr.Num.cmp] using hzero k
    | true =>
      simp only [Expr.Num.cmp, if_true, hone, Expr.cmpInt]
      split <;> [rw [if_neg (by omega), if_pos (by omega)]; rw [if_pos (by omega)]]
  cases r <;> simp only [NumSat, e]

/-- C71, `:count`: the number of results is 0 if the message was not tested and otherwise 1 (RFC 5235 section 2.1).
This holds as far as a comparison with an integer other than 1 can tell: the code counts 1.1. -/
theorem status_count_partial {x : Ext F} (B : Flt2 F) (isNot percent : Bool) (s : Spam F) (v : Virus) (c : Comparator)
    (r : Rel) (value : Val F) (k : Int) (hk : number x value = .int k) (hk1 : k ≠ 1)
    (hx : x.Ok) (hzero : ∀ k : Int, x.flt.cmp x.flt.zero (x.flt.ofInt k) = some (Expr.cmpInt 0 k))
    (hone : ∀ k : Int, x.flt.cmp B.onePointOne (x.flt.ofInt k) = some (if k ≤ 1 then .gt else .lt)) :
    (∃ b n, spamTest x B s percent c (.count r) value isNot = ⟨.bool (b ^^ isNot), []⟩ ∧
      (s = .unknown ∧ n = 0 ∨ s ≠ .unknown ∧ n = 1) ∧ (b = true ↔ NumSat x.flt (.int n) (.int k) r)) ∧
    (∃ b n, virusTest x B v c (.count r) value isNot = ⟨.bool (b ^^ isNot), []⟩ ∧
      (v = .unknown ∧ n = 0 ∨ v ≠ .unknown ∧ n = 1) ∧ (b = true ↔ NumSat x.flt (.int n) (.int k) r)) := by
  refine ⟨?_, ?_⟩
  · obtain ⟨b, h1, h2⟩ := statusTest_count B s.known isNot
      (if percent then s.percentage x.flt B else s.number x.flt B) c r value k hk hk1 hx hzero hone
    refine ⟨b, _, h1, ?_, h2⟩
    cases s <;> simp [Spam.known]
  · obtain ⟨b, h1, h2⟩ := statusTest_count B (decide (v ≠ .unknown)) isNot v.number c r value k hk hk1 hx hzero hone
    refine ⟨b, _, h1, ?_, h2⟩
    cases v <;> simp

/-- C71 fails for `:count "eq" "1"`: false although the message was tested. -/
theorem status_count_one {x : Ext F} (B : Flt2 F) (hx : x.Ok) (s : Spam F) (hs : s ≠ .unknown) (v : Virus)
    (hv : v ≠ .unknown) (percent : Bool) (c : Comparator)
    (hone : ∀ k : Int, x.flt.cmp B.onePointOne (x.flt.ofInt k) = some (if k ≤ 1 then .gt else .lt)) :
    spamTest x B s percent c (.count .eq) (.int 1) false = ⟨.bool false, []⟩ ∧
    virusTest x B v c (.count .eq) (.int 1) false = ⟨.bool false, []⟩ := by
  have key : ∀ status, statusTest x B true status c (.count .eq) (.int 1) false = ⟨.bool false, []⟩ := by
    intro status
    have h : ¬ ((Rel.eq).num x.flt (.flt B.onePointOne) (.int 1) = true) := by
      rw [relNum_iff hx.ieee]
      simp [NumSat, Expr.Num.cmp, hone]
    simp only [statusTest, if_true, number, numberChecked]
    rw [Bool.not_eq_true] at h
    rw [h]
    rfl
  refine ⟨?_, ?_⟩
  · unfold spamTest
    have e : s.known = true := by cases s <;> simp_all [Spam.known]
    rw [e]
    exact key _
  · unfold virusTest
    have e : decide (v ≠ .unknown) = true := decide_eq_true hv
    rw [e]
    exact key _

/-- Tenths as integers, for the examples: 1.1 is 11. -/
def exTenths : Ext Int :=
  { exExt with flt := { exExt.flt with ofInt := fun n => 10 * n, div := fun a b => 10 * a / b, mul := fun a b => a * b / 10 } }
def exTenths2 : Flt2 Int := ⟨fun a => (a + 9) / 10 * 10, fun a => a / 10, 11⟩

theorem exTenthsOk : exTenths.Ok where
  ieee := exOk.ieee.recOn fun a b => ⟨a, b⟩
  lowerEmpty := exOk.lowerEmpty
  lowerSome := exOk.lowerSome
  regex := exOk.regex

example (n : Nat) (h1 : 2 ≤ n) (h2 : n ≤ 9) : exTenths2.toInt (exTenths.flt.mul (exTenths.flt.div (exTenths.flt.ofInt n)
    (exTenths.flt.ofInt 10)) (exTenths.flt.ofInt 10)) = n := by
  simp only [exTenths2, exTenths]
  omega
example (k : Int) : exTenths.flt.cmp exTenths2.onePointOne (exTenths.flt.ofInt k) = some (if k ≤ 1 then .gt else .lt) := by
  simp only [exTenths, exTenths2, exExt, Expr.cmpInt]
  by_cases h : k ≤ 1
  · rw [if_pos h, if_neg (by omega), if_pos (by omega)]
  · rw [if_neg h, if_pos (by omega)]
example : (spamTest exTenths exTenths2 (.maybeSpam 7) false .asciiNumeric (.value .ge) (.int 7) false).result =
    .bool true := by rfl
example : (Spam.maybeSpam 7).percentage exTenths.flt exTenths2 = 70 := by rfl
example : (spamTest exTenths exTenths2 .ham false .asciiNumeric (.count .ge) (.int 1) false).result = .bool true := by rfl
example : (virusTest exTenths exTenths2 .cured .asciiNumeric .is (.int 3) false).result = .bool true := by rfl
example : (Spam.maybeSpam 3).number exTenths.flt exTenths2 ≤ (Spam.maybeSpam 8).number exTenths.flt exTenths2 :=
  (spam_monotone exTenths.flt exTenths2 (· ≤ ·) 3 8 (by decide)
    (fun a b h n hn => by
      simp only [exTenths]
      refine Int.ediv_le_ediv (by omega) ?_
      exact Int.mul_le_mul_of_nonneg_right h (by omega))
    (fun a b h => by simp only [exTenths2]; omega) (fun a b h => by simp only [exTenths2]; omega)).1

/-! ## C72: metadata -/

/-- The two name the same annotation of the server, or of the same mailbox; the case of annotation names does not
matter. -/
inductive SameMeta (x : Ext F) : Meta → Meta → Prop
  | server {a b} : x.eqIgnoreCase a b = true → SameMeta x (.server a) (.server b)
  | mailbox {n a b} : x.eqIgnoreCase a b = true → SameMeta x (.mailbox n a) (.mailbox n b)

theorem sameMeta_iff (x : Ext F) (a b : Meta) : a.same x b = true ↔ SameMeta x a b := by
  cases a <;> cases b <;> simp only [Meta.same, Bool.and_eq_true, beq_iff_eq, Bool.false_eq_true, false_iff]
  · exact ⟨.server, fun | .server h => h⟩
  · intro h; cases h
  · intro h; cases h
  · constructor
    · rintro ⟨rfl, h⟩; exact .mailbox h
    · rintro (h | h); exact ⟨rfl, h⟩

/-- The value stored for `wanted`: that of the first entry that names it. -/
def Stored (x : Ext F) (stored : List (Meta × Str)) (wanted : Meta) (v : Str) : Prop :=
  ∃ before m after, stored = before ++ (m, v) :: after ∧ SameMeta x m wanted ∧
    ∀ e ∈ before, ¬ SameMeta x e.1 wanted

theorem stored_iff (x : Ext F) (stored : List (Meta × Str)) (wanted : Meta) (v : Str) :
    Stored x stored wanted v ↔ ∃ m, (stored.find? fun e => e.1.same x wanted) = some (m, v) := by
  simp only [Stored, List.find?_eq_some_iff_append, sameMeta_iff, Bool.not_eq_true', Bool.eq_false_iff, ne_eq]
  constructor
  · rintro ⟨before, m, after, h1, h2, h3⟩
    exact ⟨m, h2, before, after, h1, h3⟩
  · rintro ⟨m, h2, before, after, h1, h3⟩
    exact ⟨before, m, after, h1, h2, h3⟩

/-- C72: `metadata` compares the stored value of the annotation with the keys; if there is none it is false. -/
theorem metadata_test {x : Ext F} (hx : x.Ok) (one : F) (stored : List (Meta × Str)) (wanted : Meta) (c : Comparator)
    (m : Match) (hm : ∀ r, m ≠ .count r) (keys : List (Val F)) (isNot : Bool)
    (hv : ∀ e ∈ stored, Charwise x c m e.2) :
    ∃ b caps, metadataTest x one stored wanted c m keys isNot = ⟨.bool (b ^^ isNot), caps⟩ ∧
      (b = true ↔ ∃ v, Stored x stored wanted v ∧ ∃ k ∈ keys, Holds x c m (.text v) (.val k)) := by
  unfold metadataTest
  cases hf : stored.find? fun e => e.1.same x wanted with
  | none =>
    refine ⟨false, [], rfl, ?_⟩
    simp only [Bool.false_eq_true, false_iff]
    rintro ⟨v, h1, _⟩
    obtain ⟨m', h⟩ := (stored_iff ..).mp h1
    rw [hf] at h
    cases h
  | some e =>
    obtain ⟨m', v⟩ := e
    have hmem := List.mem_of_find?_eq_some hf
    have huniq : ∀ w, Stored x stored wanted w ↔ w = v := by
      intro w
      rw [stored_iff, hf]
      simp [eq_comm]
    refine ⟨(each (fun k => attempt x c m (.text v) (.val k)) keys []).2,
      (each (fun k => attempt x c m (.text v) (.val k)) keys []).1, ?_, ?_⟩
    · cases m with
      | count r => exact absurd rfl (hm r)
      | _ => rfl
    · rw [keys_any, List.any_eq_true]
      simp only [huniq, exists_eq_left]
      refine exists_congr fun k => and_congr_right fun _ => verdict_iff hx c m _ _ (hv _ hmem)

/-- C72, `:count`: 1 if there is a value; the test is false otherwise. -/
theorem metadata_count {x : Ext F} (hx : x.Ok) (one : F) (stored : List (Meta × Str)) (wanted : Meta) (c : Comparator)
    (r : Rel) (keys : List (Val F)) (isNot : Bool) :
    ∃ b, metadataTest x one stored wanted c (.count r) keys isNot = ⟨.bool (b ^^ isNot), []⟩ ∧
      (b = true ↔ (∃ v, Stored x stored wanted v) ∧ ∃ k ∈ keys, NumSat x.flt (.flt one) (number x k) r) := by
  unfold metadataTest
  cases hf : stored.find? fun e => e.1.same x wanted with
  | none =>
    refine ⟨false, rfl, ?_⟩
    simp only [Bool.false_eq_true, false_iff, not_and]
    rintro ⟨v, h1⟩
    obtain ⟨m', h⟩ := (stored_iff ..).mp h1
    rw [hf] at h
    cases h
  | some e =>
    obtain ⟨m', v⟩ := e
    refine ⟨_, rfl, ?_⟩
    simp only [List.any_eq_true, relNum_iff hx.ieee]
    exact ⟨fun h => ⟨⟨v, (stored_iff ..).mpr ⟨m', hf⟩⟩, h⟩, fun h => h.2⟩

/-- The annotation of the server, or of the given mailbox. -/
def annotation (mailbox : Option Str) (a : Str) : Meta :=
  match mailbox with
  | none => .server a
  | some n => .mailbox n a

theorem metadataExistsGo_iff (x : Ext F) (hsym : ∀ a b, x.eqIgnoreCase a b = x.eqIgnoreCase b a) (mailbox : Option Str) :
    ∀ (stored : List (Meta × Str)) (as : List Str),
    (metadataExistsGo x mailbox stored as = true ↔
      stored ≠ [] ∧ ∀ a ∈ as, ∃ e ∈ stored, SameMeta x e.1 (annotation mailbox a))
  | [], as => by simp [metadataExistsGo]
  | (md, v) :: rest, as => by
    obtain ⟨as', has', hmem⟩ : ∃ as', metadataExistsGo x mailbox ((md, v) :: rest) as =
        (if as'.isEmpty then true else metadataExistsGo x mailbox rest as') ∧
        ∀ a, a ∈ as' ↔ a ∈ as ∧ ¬ SameMeta x md (annotation mailbox a) := by
      refine ⟨_, rfl, fun a => ?_⟩
      rw [← sameMeta_iff]
      cases md with
      | server b => cases mailbox <;> simp [annotation, Meta.same, List.mem_filter, hsym a b]
      | mailbox n b =>
        cases mailbox with
        | none => simp [annotation, Meta.same]
        | some mb =>
          by_cases h : n = mb
          · simp [annotation, Meta.same, List.mem_filter, hsym a b, h]
          · simp [annotation, Meta.same, h]
    rw [has']
    have key : ∀ P : Str → Prop, (∀ a ∈ as', P a) ↔ ∀ a ∈ as, SameMeta x md (annotation mailbox a) ∨ P a := by
      intro P
      simp only [hmem]
      constructor
      · intro h a ha
        by_cases hs : SameMeta x md (annotation mailbox a)
        · exact .inl hs
        · exact .inr (h a ⟨ha, hs⟩)
      · rintro h a ⟨ha, hs⟩
        exact (h a ha).resolve_left hs
    by_cases he : as' = []
    · subst he
      simp only [List.isEmpty_nil, if_true, true_iff]
      refine ⟨by simp, fun a ha => ?_⟩
      have := (key fun _ => False).mp (by simp) a ha
      exact ⟨(md, v), by simp, this.resolve_right id⟩
    · rw [if_neg (by simpa using he), metadataExistsGo_iff x hsym mailbox rest as', key]
      simp only [List.mem_cons, exists_eq_or_imp]
      refine ⟨fun h => ⟨by simp, h.2⟩, fun h => ⟨?_, h.2⟩⟩
      rintro rfl
      apply he
      rw [List.eq_nil_iff_forall_not_mem]
      intro a ha
      have := (key fun _ => False).mpr (fun a ha => by
        rcases h.2 a ha with h | ⟨e, h, _⟩
        · exact .inl h
        · simp at h) a ha
      exact this

/-- C72: `metadataexists` with at least one annotation is true exactly if all of them have a value. -/
theorem metadataexists_test (x : Ext F) (hsym : ∀ a b, x.eqIgnoreCase a b = x.eqIgnoreCase b a)
    (stored : List (Meta × Str)) (mailbox : Option Str) (annotations : List Str) (hne : annotations ≠ []) (isNot : Bool) :
    ∃ b, metadataExistsTest x stored mailbox annotations isNot = (b ^^ isNot) ∧
      (b = true ↔ ∀ a ∈ annotations, ∃ v, Stored x stored (annotation mailbox a) v) := by
  refine ⟨_, rfl, ?_⟩
  rw [metadataExistsGo_iff x hsym]
  have hst : ∀ a, (∃ v, Stored x stored (annotation mailbox a) v) ↔
      ∃ e ∈ stored, SameMeta x e.1 (annotation mailbox a) := by
    intro a
    simp only [stored_iff]
    constructor
    · rintro ⟨v, m, h⟩
      have h2 := List.find?_some h
      exact ⟨_, List.mem_of_find?_eq_some h, (sameMeta_iff ..).mp h2⟩
    · rintro ⟨e, he, hs⟩
      cases hf : stored.find? fun e => e.1.same x (annotation mailbox a) with
      | none =>
        have := List.find?_eq_none.mp hf e he
        exact absurd ((sameMeta_iff ..).mpr hs) this
      | some e' => exact ⟨e'.2, e'.1, rfl⟩
  simp only [hst]
  refine ⟨fun h => h.2, fun h => ⟨?_, h⟩⟩
  rintro rfl
  obtain ⟨a, as, rfl⟩ := List.exists_cons_of_ne_nil hne
  obtain ⟨e, he, _⟩ := h a (by simp)
  simp at he

def exMeta : List (Meta × Str) :=
  [(.mailbox "inbox".toList "/a".toList, "1".toList), (.server "/a".toList, "2".toList), (.server "/a".toList, "3".toList)]
example : metadataTest exExt 1 exMeta (.server "/a".toList) .octet .is [.str "3".toList, .str "2".toList] false =
    ⟨.bool true, []⟩ := by rfl
example : metadataTest exExt 1 exMeta (.server "/a".toList) .octet .is [.str "3".toList] false = ⟨.bool false, []⟩ := by rfl
example : Stored exExt exMeta (.server "/a".toList) "2".toList :=
  ⟨[_], _, _, rfl, .server rfl, by simp only [List.mem_singleton, forall_eq]; intro h; cases h⟩
example : metadataExistsTest exExt exMeta (some "inbox".toList) ["/a".toList, "/b".toList] false = false := by rfl
example : metadataExistsTest exExt exMeta none ["/a".toList, "/a".toList] false = true := by rfl
example (a b : Str) : exExt.eqIgnoreCase a b = exExt.eqIgnoreCase b a := by
  show (a == b) = (b == a)
  rw [Bool.eq_iff_iff, beq_iff_eq, beq_iff_eq]
  exact eq_comm

/-! ## C73: what the host supports -/

/-- The URI is a scheme, a colon and something more; an unknown scheme is not accepted, and an address in a `mailto` URI
must be readable. -/
inductive GoodUri (y : Address.MExt) : List UInt8 → List UInt8 → Prop
  | mailto {scheme rest m} : 58 ∉ scheme → rest ≠ [] → scheme.map Address.byteLower = ascii' "mailto" →
      Address.parseMailto y rest = some m → GoodUri y (scheme ++ 58 :: rest) scheme
  | other {scheme rest} : rest ≠ [] → scheme ∈ [ascii' "xmpp", ascii' "tel", ascii' "http", ascii' "https"] →
      GoodUri y (scheme ++ 58 :: rest) scheme

theorem parseUri_iff (uri scheme rest : List UInt8) :
    parseUri uri = some (scheme, rest) ↔ uri = scheme ++ 58 :: rest ∧ 58 ∉ scheme ∧ rest ≠ [] := by
  induction uri generalizing scheme with
  | nil => simp [parseUri]
  | cons c cs ih =>
    unfold parseUri
    by_cases hc : c = 58
    · subst hc
      rw [if_pos rfl]
      by_cases he : cs = []
      · subst he
        simp only [List.isEmpty_nil, if_true, reduceCtorEq, false_iff]
        rintro ⟨h1, h2, h3⟩
        cases scheme with
        | nil => simp at h1; exact h3 h1
        | cons a as => simp at h1
      · rw [if_neg (by simpa using he)]
        simp only [Option.some_inj, Prod.mk.injEq]
        constructor
        · rintro ⟨rfl, rfl⟩
          exact ⟨rfl, by simp, he⟩
        · rintro ⟨h1, h2, h3⟩
          cases scheme with
          | nil => simp at h1; exact ⟨rfl, h1⟩
          | cons a as =>
            simp only [List.cons_append, List.cons.injEq] at h1
            exact absurd (h1.1 ▸ List.mem_cons_self) h2
    · rw [if_neg hc]
      cases scheme with
      | nil =>
        simp only [List.nil_append, List.cons.injEq, hc, false_and, iff_false, Option.map_eq_some_iff, Prod.exists]
        rintro ⟨a, b, _, h⟩
        cases h
      | cons a as =>
        simp only [Option.map_eq_some_iff, Prod.exists, Prod.mk.injEq, List.cons.injEq, List.cons_append, List.mem_cons,
          not_or]
        constructor
        · rintro ⟨s, u, h, ⟨rfl, rfl⟩, rfl⟩
          obtain ⟨h1, h2, h3⟩ := (ih s).mp h
          exact ⟨⟨rfl, h1⟩, ⟨fun h => hc h.symm, h2⟩, h3⟩
        · rintro ⟨⟨rfl, h1⟩, ⟨_, h2⟩, h3⟩
          exact ⟨as, rest, (ih as).mpr ⟨h1, h2, h3⟩, ⟨rfl, rfl⟩, rfl⟩

theorem schemes_plain : ∀ s ∈ [ascii' "xmpp", ascii' "tel", ascii' "http", ascii' "https"],
    58 ∉ s ∧ Address.eqIgnoreCase s (ascii' "mailto") = false := by decide

/-- C73: the notification methods that the code takes for valid. -/
theorem validate_uri (y : Address.MExt) (uri scheme : List UInt8) :
    validateUri y uri = some scheme ↔ GoodUri y uri scheme := by
  have hml : ∀ s : List UInt8, Address.eqIgnoreCase s (ascii' "mailto") = true ↔
      s.map Address.byteLower = ascii' "mailto" := by
    intro s
    rw [Address.eqIgnoreCase, beq_iff_eq]
    rw [show (ascii' "mailto").map Address.byteLower = ascii' "mailto" by decide]
  unfold validateUri
  constructor
  · intro h
    split at h
    · cases h
    · rename_i s r hp
      obtain ⟨h1, h2, h3⟩ := (parseUri_iff ..).mp hp
      subst h1
      by_cases hm : Address.eqIgnoreCase s (ascii' "mailto") = true
      · rw [if_pos hm, Option.map_eq_some_iff] at h
        obtain ⟨m, hm', rfl⟩ := h
        exact .mailto h2 h3 ((hml s).mp hm) hm'
      · rw [if_neg hm] at h
        by_cases hs : s ∈ [ascii' "xmpp", ascii' "tel", ascii' "http", ascii' "https"]
        · rw [if_pos hs, Option.some_inj] at h
          subst h
          exact .other h3 hs
        · rw [if_neg hs] at h
          cases h
  · intro h
    cases h with
    | mailto h1 h2 h3 h4 =>
      rw [(parseUri_iff ..).mpr ⟨rfl, h1, h2⟩]
      simp only
      rw [if_pos ((hml _).mpr h3), h4]
      rfl
    | other h2 h3 =>
      obtain ⟨h1, h4⟩ := schemes_plain _ h3
      rw [(parseUri_iff ..).mpr ⟨rfl, h1, h2⟩]
      simp only
      rw [if_neg (by rw [h4]; simp), if_pos h3]

/-- The host supports the method: it lists the scheme as written in the URI, or the whole URI. -/
def Supports (y : Address.MExt) (supported : List (List UInt8)) (uri : List UInt8) : Prop :=
  ∃ scheme, GoodUri y uri scheme ∧ (scheme ∈ supported ∨ uri ∈ supported)

theorem supportedUri_iff (y : Address.MExt) (supported : List (List UInt8)) (uri : List UInt8) :
    supportedUri y supported uri = true ↔ Supports y supported uri := by
  unfold supportedUri Supports
  simp only [← validate_uri]
  cases validateUri y uri with
  | none => simp
  | some s => simp

theorem filter_all_iff {α : Type} (f : α → Bool) (l : List α) :
    decide ((l.filter f).length = l.length) = true ↔ ∀ a ∈ l, f a = true := by
  rw [decide_eq_true_iff, List.length_filter_eq_length_iff]

/-- C73: `valid_notify_method` is true exactly if the host supports all the methods (RFC 5435 section 4). -/
theorem valid_notify_method (y : Address.MExt) (supported uris : List (List UInt8)) (isNot : Bool) :
    ∃ b, validNotifyTest y supported uris isNot = (b ^^ isNot) ∧ (b = true ↔ ∀ u ∈ uris, Supports y supported u) := by
  refine ⟨_, rfl, ?_⟩
  rw [filter_all_iff]
  simp only [supportedUri_iff]

/-- Schemes are told apart by the case of their letters, against RFC 3986 section 3.1: with `mailto` supported,
`Mailto` is not. -/
theorem scheme_case (y : Address.MExt) (rest : List UInt8) :
    supportedUri y [ascii' "mailto"] (ascii' "Mailto" ++ 58 :: rest) = false := by
  rw [← Bool.not_eq_true, supportedUri_iff]
  rintro ⟨scheme, hg, h⟩
  have hs : scheme = ascii' "Mailto" := by
    have h1 := (validate_uri y _ scheme).mpr hg
    unfold validateUri at h1
    by_cases hr : rest = []
    · subst hr
      have : parseUri (ascii' "Mailto" ++ [58]) = none := by decide
      rw [this] at h1
      cases h1
    · rw [(parseUri_iff (ascii' "Mailto" ++ 58 :: rest) (ascii' "Mailto") rest).mpr ⟨rfl, by decide, hr⟩] at h1
      simp only at h1
      rw [if_pos (by decide), Option.map_eq_some_iff] at h1
      obtain ⟨_, _, h1⟩ := h1
      exact h1.symm
  rcases h with h | h
  · rw [hs] at h
    exact absurd h (by decide)
  · rw [List.mem_singleton] at h
    exact absurd (congrArg List.length h) (by
      have : (ascii' "mailto").length = 6 := by decide
      have : (ascii' "Mailto").length = 6 := by decide
      simp only [List.length_append, List.length_cons]
      omega)

/-- The match type without variables. -/
def withoutCaptures : Match → Match
  | .matches _ => .matches 0
  | .regex _ => .regex 0
  | m => m

/-- C73: `notify_method_capability` is true exactly if the capability is `online`, the method is supported and `maybe`
matches one of the keys (RFC 5435 section 5). -/
theorem notify_method_capability {x : Ext F} (hx : x.Ok) (one : F) (y : Address.MExt) (supported : List (List UInt8))
    (uri : List UInt8) (capability : Str) (c : Comparator) (m : Match) (hm : ∀ r, m ≠ .count r) (keys : List (Val F))
    (isNot : Bool) :
    ∃ b, notifyCapabilityTest x one y supported uri capability c m keys isNot = (b ^^ isNot) ∧
      (b = true ↔ x.eqIgnoreCase capability "online".toList = true ∧ Supports y supported uri ∧
        ∃ k ∈ keys, Holds x c m (.text "maybe".toList) (.val k)) := by
  have hch : Charwise x c (withoutCaptures m) "maybe".toList := by
    intro cp h1 h2
    cases m <;> simp [withoutCaptures] at h1
    · exact absurd h1.symm h2
  have hw : ∀ k, Holds x c (withoutCaptures m) (.text "maybe".toList) (.val k) ↔
      Holds x c m (.text "maybe".toList) (.val k) := by
    intro k
    cases m <;> cases c <;> rfl
  unfold notifyCapabilityTest
  by_cases h1 : x.eqIgnoreCase capability "online".toList = true
  · by_cases h2 : supportedUri y supported uri = true
    · refine ⟨keys.any fun k => verdict x c (withoutCaptures m) (.text "maybe".toList) (.val k), ?_, ?_⟩
      · rw [h1, h2]
        cases m with
        | count r => exact absurd rfl (hm r)
        | _ => rfl
      · simp only [List.any_eq_true, h1, ← supportedUri_iff, h2, true_and]
        refine exists_congr fun k => and_congr_right fun _ => ?_
        rw [verdict_iff hx c _ _ _ hch, hw]
    · refine ⟨false, ?_, ?_⟩
      · rw [Bool.not_eq_true] at h2
        rw [h2]
        simp only [Bool.not_false, Bool.or_true, if_true]
      · rw [← supportedUri_iff]
        simp only [h2, false_and, and_false, Bool.false_eq_true]
  · refine ⟨false, ?_, ?_⟩
    · rw [Bool.not_eq_true] at h1
      rw [h1]
      simp only [Bool.not_false, Bool.true_or, if_true]
    · simp only [h1, false_and, Bool.false_eq_true]

/-- C73: `valid_ext_list` is true exactly if the host knows all the lists (RFC 6134 section 2.7). -/
theorem valid_ext_list (supported names : List Str) (isNot : Bool) :
    ∃ b, validListTest supported names isNot = (b ^^ isNot) ∧ (b = true ↔ ∀ n ∈ names, n ∈ supported) := by
  refine ⟨_, rfl, ?_⟩
  rw [filter_all_iff]
  simp

/-- C73: `ihave` is true exactly if all the extensions are available and none of them is one that has to be required
before (RFC 5463 section 4). -/
theorem ihave {K : Type} [DecidableEq K] (never allowed caps : List K) (isNot : Bool) :
    ∃ b, ihaveTest never allowed caps isNot = (b ^^ isNot) ∧ (b = true ↔ ∀ c ∈ caps, c ∈ allowed ∧ c ∉ never) := by
  refine ⟨_, rfl, ?_⟩
  simp [and_comm]

example (y : Address.MExt) : GoodUri y (ascii' "tel:1") (ascii' "tel") :=
  .other (scheme := ascii' "tel") (rest := [49]) (by decide) (by decide)
example (y : Address.MExt) : validNotifyTest y [ascii' "tel"] [ascii' "tel:1", ascii' "tel:2"] false = true := by rfl
example (y : Address.MExt) : validNotifyTest y [ascii' "tel"] [ascii' "tel:1", ascii' "http:2"] false = false := by rfl
example (y : Address.MExt) : notifyCapabilityTest exExt 1 y [ascii' "tel:1"] (ascii' "tel:1") "online".toList .octet .is
    [.str "yes".toList, .str "maybe".toList] false = true := by rfl
example : ihaveTest [1] [1, 2, 3] [2, 3] false = true ∧ ihaveTest [1] [1, 2, 3] [1, 3] false = false := by decide
example : validListTest ["a".toList] ["a".toList, "b".toList] true = true := by decide

end Sieve.Tests
