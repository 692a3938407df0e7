import Verif.HvarProps

/-!
# Properties of the evaluation of header variables (C88, C89)
-/

namespace Sieve.Hvar

variable {N R : Type}

/-! ### C89: the raw text of a header -/

theorem blank_eq (b : UInt8) : blank b = Address.byteSpace b := by
  rfl

theorem sanitize_solid {w : List UInt8} (hw : ∀ x ∈ w, ¬ blank x) (r : List UInt8) :
    sanitizeLoop false (w ++ r) = w ++ sanitizeLoop false r := by
  induction w with
  | nil => rfl
  | cons c w ih =>
    have hc : Address.byteSpace c = false := by
      rw [← blank_eq]; simpa using hw c (by simp)
    simp only [List.cons_append, sanitizeLoop, hc, Bool.false_eq_true, if_false]
    rw [ih fun x hx => hw x (by simp [hx])]

theorem sanitize_gap {g : List UInt8} (hg : ∀ x ∈ g, blank x) (b : Bool) (r : List UInt8) :
    sanitizeLoop b (g ++ r) = sanitizeLoop (b || !g.isEmpty) r := by
  induction g generalizing b with
  | nil => simp
  | cons c g ih =>
    have hc : Address.byteSpace c = true := by rw [← blank_eq]; exact hg c (by simp)
    simp only [List.cons_append, sanitizeLoop, hc, if_true]
    rw [ih (fun x hx => hg x (by simp [hx]))]
    simp

/-- **C89** The raw text of a header is its words, each after a single space; a first word without gap before it stays
as it is, white space at the end is dropped. -/
theorem sanitize_words {w r : List UInt8} {ws : List (List UInt8)} (hw : ∀ x ∈ w, ¬ blank x) (hr : Words r ws) :
    sanitize (w ++ r) = w ++ (ws.map fun x => 32 :: x).flatten := by
  unfold sanitize
  rw [sanitize_solid hw]
  congr 1
  induction hr with
  | @none g hg =>
    have := sanitize_gap hg false []
    rw [List.append_nil] at this
    rw [this]; cases g <;> rfl
  | @word g x r ws hg hg0 hx hx0 _ ih =>
    rw [List.append_assoc, sanitize_gap hg]
    have hg1 : g.isEmpty = false := by cases g <;> simp_all
    rw [hg1]
    cases x with
    | nil => exact absurd rfl hx0
    | cons c x =>
      have hc : Address.byteSpace c = false := by
        rw [← blank_eq]; simpa using hx c (by simp)
      simp only [List.cons_append, sanitizeLoop, hc, Bool.not_false, Bool.or_true, Bool.false_eq_true, if_false, if_true,
        List.map_cons, List.flatten_cons]
      rw [sanitize_solid (fun y hy => hx y (by simp [hy])), ih]

/-- Every text is made of words in this way. -/
theorem words_exist (b : List UInt8) : ∃ w r ws, b = w ++ r ∧ (∀ x ∈ w, ¬ blank x) ∧ Words r ws := by
  have key : ∀ b : List UInt8, (∃ w r ws, b = w ++ r ∧ (∀ x ∈ w, ¬ blank x) ∧ Words r ws) := by
    intro b
    induction b with
    | nil => exact ⟨[], [], [], rfl, by simp, .none (by simp)⟩
    | cons c b ih =>
      obtain ⟨w, r, ws, rfl, hw, hr⟩ := ih
      by_cases hc : blank c
      · cases w with
        | nil =>
          refine ⟨[], c :: r, ws, rfl, by simp, ?_⟩
          cases hr with
          | none hg => exact .none (by simpa [hc] using hg)
          | @word g w r ws hg hg0 hw hw0 hr =>
            exact .word (g := c :: g) (by simpa [hc] using hg) (by simp) hw hw0 hr
        | cons d w =>
          exact ⟨[], [c] ++ (d :: w) ++ r, (d :: w) :: ws, by simp, by simp, .word (by simpa using hc) (by simp) hw (by simp) hr⟩
      · exact ⟨c :: w, r, ws, rfl, by simpa [hc] using hw, hr⟩
  exact key b

theorem sanitize_mem {b : List UInt8} {x : UInt8} (hx : x ∈ sanitize b) : x = 32 ∨ (¬ blank x ∧ x ∈ b) := by
  obtain ⟨w, r, ws, rfl, hw, hr⟩ := words_exist b
  rw [sanitize_words hw hr, List.mem_append] at hx
  rcases hx with hx | hx
  · exact .inr ⟨hw x hx, by simp [hx]⟩
  · have : x = 32 ∨ (¬ blank x ∧ x ∈ r) := by
      clear hw
      induction hr with
      | none => simp at hx
      | @word g y r ws _ _ hy _ _ ih =>
        simp only [List.map_cons, List.flatten_cons, List.cons_append, List.mem_cons, List.mem_append] at hx
        rcases hx with rfl | hx | hx
        · exact .inl rfl
        · exact .inr ⟨hy x hx, by simp [hx]⟩
        · rcases ih hx with h | ⟨h, h'⟩
          · exact .inl h
          · exact .inr ⟨h, by simp [h']⟩
    rcases this with h | ⟨h, h'⟩
    · exact .inl h
    · exact .inr ⟨h, by simp [h']⟩

/-- **C89** The raw text has no line breaks. -/
theorem sanitize_line (b : List UInt8) : 13 ∉ sanitize b ∧ 10 ∉ sanitize b := by
  constructor <;> intro h <;> rcases sanitize_mem h with h | ⟨h, _⟩ <;> first | cases h | exact h (by decide)

/-- **C89** All other bytes are kept, in order. -/
theorem sanitize_bytes (b : List UInt8) : (sanitize b).filter (fun x => !blank x) = b.filter (fun x => !blank x) := by
  obtain ⟨w, r, ws, rfl, hw, hr⟩ := words_exist b
  rw [sanitize_words hw hr, List.filter_append, List.filter_append]
  congr 1
  clear hw
  induction hr with
  | none hg =>
    symm
    simpa using hg
  | @word g y r ws hg _ hy _ _ ih =>
    simp only [List.map_cons, List.flatten_cons, List.filter_append, ih]
    have h1 : g.filter (fun x => !blank x) = [] := by simpa using hg
    rw [h1]
    simp [blank]

/-- **C89** Doing it again changes nothing. -/
theorem sanitize_twice (b : List UInt8) : sanitize (sanitize b) = sanitize b := by
  obtain ⟨w, r, ws, rfl, hw, hr⟩ := words_exist b
  rw [sanitize_words hw hr]
  refine sanitize_words hw ?_
  clear hw
  induction hr with
  | none => exact .none (by simp)
  | @word g y r ws _ _ hy hy0 _ ih =>
    simp only [List.map_cons, List.flatten_cons]
    exact .word (g := [32]) (by simp [blank]) (by simp) hy hy0 ih

-- " a \r\n\tb " is " a b"
example : sanitize [32, 97, 32, 13, 10, 9, 98, 32] = [32, 97, 32, 98] := by decide

example : Words [32, 97, 32, 13, 10, 9, 98, 32] [[97], [98]] :=
  .word (g := [32]) (w := [97]) (by decide) (by decide) (by decide) (by decide)
    (.word (g := [32, 13, 10, 9]) (w := [98]) (by decide) (by decide) (by decide) (by decide) (.none (by decide)))

/-! ### C88: evaluation -/

theorem nth_pos {α : Type} (l : List α) {k : Int} (hk : 0 < k) (b : α) :
    nth l k = some b ↔ ∃ pre post, l = pre ++ b :: post ∧ (pre.length : Int) = k - 1 := by
  simp only [nth, hk, if_true]
  constructor
  · intro h
    obtain ⟨hi, rfl⟩ := List.getElem?_eq_some_iff.mp h
    refine ⟨l.take (k - 1).toNat, l.drop ((k - 1).toNat + 1), ?_, ?_⟩
    · rw [List.getElem_cons_drop, List.take_append_drop]
    · rw [List.length_take, Nat.min_eq_left (by omega)]; omega
  · rintro ⟨pre, post, rfl, h⟩
    have : (k - 1).toNat = pre.length := by omega
    rw [this]; simp

/-- The index picks what it says. -/
theorem nth_iff {α : Type} (l : List α) {k : Int} (hk : k ≠ 0) (b : α) : nth l k = some b ↔ Picked l k b := by
  unfold Picked
  by_cases h : 0 < k
  · rw [nth_pos l h]
    constructor
    · rintro ⟨pre, post, h1, h2⟩; exact ⟨pre, post, h1, .inl ⟨h, h2⟩⟩
    · rintro ⟨pre, post, h1, h2⟩
      rcases h2 with ⟨_, h2⟩ | ⟨h2, _⟩
      · exact ⟨pre, post, h1, h2⟩
      · omega
  · have hr : nth l k = nth l.reverse (-k) := by
      simp only [nth, h, if_false]
      rw [if_pos (by omega)]
      congr 1
      omega
    rw [hr, nth_pos _ (by omega)]
    constructor
    · rintro ⟨pre, post, h1, h2⟩
      refine ⟨post.reverse, pre.reverse, ?_, .inr ⟨by omega, by simpa using h2⟩⟩
      have := congrArg List.reverse h1
      simpa using this
    · rintro ⟨pre, post, rfl, h2⟩
      rcases h2 with ⟨h2, _⟩ | ⟨_, h2⟩
      · exact absurd h2 h
      · exact ⟨post.reverse, pre.reverse, by simp, by simpa using h2⟩

/-- The `k`-th header with one of the names, from the top, or the `-k`-th from the bottom. -/
def Occurrence [DecidableEq N] (names : List N) (hs : List (Header N R)) (k : Int) (hd : Header N R) : Prop :=
  ∃ pre post, hs = pre ++ hd :: post ∧ hd.name ∈ names ∧
    ((0 < k ∧ (pre.countP (fun x => x.name ∈ names) : Int) = k - 1) ∨
     (k < 0 ∧ (post.countP (fun x => x.name ∈ names) : Int) = -k - 1))

theorem filter_split {α : Type} {p : α → Bool} {l pre post : List α} {b : α} (h : l.filter p = pre ++ b :: post) :
    ∃ pre' post', l = pre' ++ b :: post' ∧ pre'.filter p = pre ∧ post'.filter p = post ∧ p b = true := by
  induction l generalizing pre with
  | nil => simp at h
  | cons c l ih =>
    rw [List.filter_cons] at h
    split at h
    · next hc =>
      cases pre with
      | nil =>
        simp only [List.nil_append, List.cons.injEq] at h
        obtain ⟨rfl, h⟩ := h
        exact ⟨[], l, rfl, rfl, h, hc⟩
      | cons d pre =>
        simp only [List.cons_append, List.cons.injEq] at h
        obtain ⟨rfl, h⟩ := h
        obtain ⟨pre', post', rfl, h1, h2, h3⟩ := ih h
        exact ⟨c :: pre', post', rfl, by simp [hc, h1], h2, h3⟩
    · next hc =>
      obtain ⟨pre', post', rfl, h1, h2, h3⟩ := ih h
      exact ⟨c :: pre', post', rfl, by simp [hc, h1], h2, h3⟩

theorem nth_occurrence [DecidableEq N] (names : List N) (hs : List (Header N R)) {k : Int} (hk : k ≠ 0) (hd : Header N R) :
    nth (hs.filter fun x => x.name ∈ names) k = some hd ↔ Occurrence names hs k hd := by
  rw [nth_iff _ hk]
  constructor
  · rintro ⟨pre, post, h, h'⟩
    obtain ⟨pre', post', h1, rfl, rfl, h2⟩ := filter_split h
    refine ⟨pre', post', h1, by simpa using h2, ?_⟩
    simpa [List.countP_eq_length_filter] using h'
  · rintro ⟨pre, post, rfl, h, h'⟩
    refine ⟨pre.filter fun x => x.name ∈ names, post.filter fun x => x.name ∈ names, by simp [h], ?_⟩
    simpa [List.countP_eq_length_filter] using h'

/-- What a list of values becomes: nothing, a value if neither index is that of all, or an array. -/
inductive Result (h : HVar N) : List Scalar → Option Value → Prop where
  | none : Result h [] none
  | one {v} : h.indexHdr ≠ 0 → h.indexPart ≠ 0 → Result h [v] (some (.one v))
  | array {l} : l ≠ [] → (l.length = 1 → h.indexHdr = 0 ∨ h.indexPart = 0) → Result h l (some (.array l))

/-- The values: those of the header the index picks if there is one, those of all headers with the names, or those of
all headers if there are no names. -/
inductive Values [DecidableEq N] (x : Ext N R) (h : HVar N) (hs : List (Header N R)) (raw : List UInt8) : List Scalar → Prop where
  | picked {hd l} : h.name ≠ [] → h.indexHdr ≠ 0 → Occurrence h.name hs h.indexHdr hd → evalPart x h hd raw = some l →
      Values x h hs raw l
  | absent : h.name ≠ [] → h.indexHdr ≠ 0 → (∀ hd, ¬ Occurrence h.name hs h.indexHdr hd) → Values x h hs raw []
  | all {vs} : h.name ≠ [] → h.indexHdr = 0 →
      List.Forall₂ (fun hd l => evalPart x h hd raw = some l) (hs.filter fun x => x.name ∈ h.name) vs →
      Values x h hs raw vs.flatten
  | any {vs} : h.name = [] → List.Forall₂ (fun hd l => evalAny x h hd raw = some l) hs vs → Values x h hs raw vs.flatten

theorem evalAll_iff (x : Ext N R) (h : HVar N) (raw : List UInt8) (hs : List (Header N R)) (l : List Scalar) :
    evalAll x h raw hs = some l ↔ ∃ vs, List.Forall₂ (fun hd l => evalPart x h hd raw = some l) hs vs ∧ l = vs.flatten := by
  induction hs generalizing l with
  | nil =>
    simp only [evalAll, Option.some.injEq]
    constructor
    · rintro rfl; exact ⟨[], .nil, rfl⟩
    · rintro ⟨vs, h, rfl⟩; cases h; rfl
  | cons hd hs ih =>
    simp only [evalAll, Option.bind_eq_bind, Option.bind_eq_some_iff, Option.pure_def, Option.some.injEq]
    constructor
    · rintro ⟨a, ha, b, hb, rfl⟩
      obtain ⟨vs, hv, rfl⟩ := (ih b).mp hb
      exact ⟨a :: vs, .cons ha hv, rfl⟩
    · rintro ⟨vs, hv, rfl⟩
      cases hv with
      | @cons _ a _ vs ha hv => exact ⟨a, ha, vs.flatten, (ih _).mpr ⟨vs, hv, rfl⟩, rfl⟩

theorem evalAnys_iff (x : Ext N R) (h : HVar N) (raw : List UInt8) (hs : List (Header N R)) (l : List Scalar) :
    evalAnys x h raw hs = some l ↔ ∃ vs, List.Forall₂ (fun hd l => evalAny x h hd raw = some l) hs vs ∧ l = vs.flatten := by
  induction hs generalizing l with
  | nil =>
    simp only [evalAnys, Option.some.injEq]
    constructor
    · rintro rfl; exact ⟨[], .nil, rfl⟩
    · rintro ⟨vs, h, rfl⟩; cases h; rfl
  | cons hd hs ih =>
    simp only [evalAnys, Option.bind_eq_bind, Option.bind_eq_some_iff, Option.pure_def, Option.some.injEq]
    constructor
    · rintro ⟨a, ha, b, hb, rfl⟩
      obtain ⟨vs, hv, rfl⟩ := (ih b).mp hb
      exact ⟨a :: vs, .cons ha hv, rfl⟩
    · rintro ⟨vs, hv, rfl⟩
      cases hv with
      | @cons _ a _ vs ha hv => exact ⟨a, ha, vs.flatten, (ih _).mpr ⟨vs, hv, rfl⟩, rfl⟩

theorem values_iff [DecidableEq N] (x : Ext N R) (h : HVar N) (hs : List (Header N R)) (raw : List UInt8) (l : List Scalar) :
    values x h hs raw = some l ↔ Values x h hs raw l := by
  unfold values
  by_cases h0 : h.name = []
  · rw [if_neg (by simpa using h0), evalAnys_iff]
    constructor
    · rintro ⟨vs, hv, rfl⟩; exact .any h0 hv
    · intro hv
      cases hv with
      | picked h1 => exact absurd h0 h1
      | absent h1 => exact absurd h0 h1
      | all h1 => exact absurd h0 h1
      | any _ hv => exact ⟨_, hv, rfl⟩
  · rw [if_pos h0]
    dsimp only
    by_cases hk : h.indexHdr = 0
    · rw [if_pos hk, evalAll_iff]
      constructor
      · rintro ⟨vs, hv, rfl⟩; exact .all h0 hk hv
      · intro hv
        cases hv with
        | picked _ h1 => exact absurd hk h1
        | absent _ h1 => exact absurd hk h1
        | all _ _ hv => exact ⟨_, hv, rfl⟩
        | any h1 => exact absurd h1 h0
    · rw [if_neg hk]
      cases hn : nth (hs.filter fun hd => hd.name ∈ h.name) h.indexHdr with
      | none =>
        have ha : ∀ hd, ¬ Occurrence h.name hs h.indexHdr hd := by
          intro hd ho
          rw [← nth_occurrence _ _ hk, hn] at ho
          cases ho
        constructor
        · intro e; cases e; exact .absent h0 hk ha
        · intro hv
          cases hv with
          | picked _ _ ho => exact absurd ho (ha _)
          | absent => rfl
          | all _ h1 => exact absurd h1 hk
          | any h1 => exact absurd h1 h0
      | some hd =>
        constructor
        · intro e; exact .picked h0 hk ((nth_occurrence _ _ hk _).mp hn) e
        · intro hv
          cases hv with
          | picked _ _ ho hv =>
            rw [← nth_occurrence _ _ hk, hn] at ho
            cases ho
            exact hv
          | absent _ _ ha => exact absurd ((nth_occurrence _ _ hk _).mp hn) (ha _)
          | all _ h1 => exact absurd h1 hk
          | any h1 => exact absurd h1 h0

/-- **C88** A header variable has the values of the header its index picks, of all headers with its names, or of all
headers; one value alone is not an array unless all were asked for. -/
theorem header_value [DecidableEq N] (x : Ext N R) (h : HVar N) (hs : List (Header N R)) (raw : List UInt8) (r : Option Value) :
    evalHeader x h hs raw = some r ↔ ∃ l, Values x h hs raw l ∧ Result h l r := by
  unfold evalHeader
  rw [Option.map_eq_some_iff]
  have key : ∀ l : List Scalar, shape h l = r ↔ Result h l r := by
    intro l
    constructor
    · rintro rfl
      unfold shape
      split
      · exact .none
      · split
        · next hc => exact .one hc.1 hc.2
        · next hc => exact .array (by simp) (fun _ => by
            by_cases h1 : h.indexHdr = 0
            · exact .inl h1
            · by_cases h2 : h.indexPart = 0
              · exact .inr h2
              · exact absurd ⟨h1, h2⟩ hc)
      · next h1 h2 => exact .array h1 (fun hl => by
          obtain ⟨v, rfl⟩ := List.length_eq_one_iff.mp hl
          exact absurd rfl (h2 v))
    · intro hr
      cases hr with
      | none => rfl
      | one h1 h2 => simp [shape, h1, h2]
      | array h1 h2 =>
        match l, h1, h2 with
        | [v], _, h2 =>
          have := h2 rfl
          simp only [shape]
          rw [if_neg (by rintro ⟨a, b⟩; rcases this with h | h; exact a h; exact b h)]
        | a :: b :: l, _, _ => rfl
  constructor
  · rintro ⟨l, hl, hr⟩
    exact ⟨l, (values_iff x h hs raw l).mp hl, (key l).mp hr⟩
  · rintro ⟨l, hl, hr⟩
    exact ⟨l, (values_iff x h hs raw l).mpr hl, (key l).mpr hr⟩

/-! ### The values of one header -/

/-- An address as text -/
inductive Shown : Addr → List Char → Prop where
  | both {n e} : Shown ⟨some n, some e⟩ (n ++ ' ' :: '<' :: e ++ ['>'])
  | name {n} : Shown ⟨some n, none⟩ n
  | address {e} : Shown ⟨none, some e⟩ ('<' :: e ++ ['>'])
  | none : Shown ⟨.none, .none⟩ []

/-- The part of an address: its name, itself, or a part of it, if it is not empty. -/
inductive PartOf (x : Ext N R) : AddrPart → Addr → Option (List Char) → Prop where
  | name {a} : PartOf x .name a a.name
  | all {a} : PartOf x .all a a.address
  | missing {p n} : p ≠ .name → PartOf x p ⟨n, none⟩ none
  | empty {p n} : p ≠ .name → PartOf x p ⟨n, some []⟩ (some [])
  | part {p n e} : p ≠ .name → p ≠ .all → e ≠ [] → PartOf x p ⟨n, some e⟩ (x.addressPart p e)

/-- A header that is a list, and its items: strings, addresses as text, parts of addresses. -/
inductive Items (x : Ext N R) (raw : List UInt8) : HPart → Header N R → List Scalar → Prop where
  | texts {hd l} : hd.value = .textList l → Items x raw .text hd (l.map .str)
  | shown {hd l ts} : hd.value = .address l → List.Forall₂ Shown l ts → Items x raw .text hd (ts.map .str)
  | parts {hd p l ts} : hd.value = .address l → List.Forall₂ (PartOf x p) l ts →
      Items x raw (.address p) hd (ts.map fun t => .str (t.getD []))
  /-- an unknown header is parsed as addresses -/
  | parsed {hd p t b l ts} : hd.value = .text t → get raw hd.offStart hd.offEnd = some b → x.parseAddress b = some l →
      List.Forall₂ (PartOf x p) l ts → Items x raw (.address p) hd (ts.map fun t => .str (t.getD []))

theorem shown_iff (a : Addr) (t : List Char) : Shown a t ↔ a.toText = .str t := by
  constructor
  · intro h
    cases h <;> simp [Addr.toText, Scalar.empty]
  · intro h
    obtain ⟨n, e⟩ := a
    cases n <;> cases e <;> simp only [Addr.toText, Scalar.empty, Scalar.str.injEq] at h <;> subst h
    · exact .none
    · exact .address
    · exact .name
    · have : ∀ (a b : List Char), a ++ " <".toList ++ b ++ ['>'] = a ++ ' ' :: '<' :: b ++ ['>'] := by
        intro a b; simp
      rw [this]; exact .both

theorem partOf_iff (x : Ext N R) (p : AddrPart) (a : Addr) (t : Option (List Char)) :
    PartOf x p a t ↔ p.evalStrict x a = t := by
  constructor
  · intro h
    cases h with
    | name => rfl
    | all => rfl
    | missing h => cases p <;> simp_all [AddrPart.evalStrict]
    | empty h => cases p <;> simp_all [AddrPart.evalStrict]
    | part h1 h2 h3 => cases p <;> simp_all [AddrPart.evalStrict]
  · rintro rfl
    obtain ⟨n, e⟩ := a
    by_cases h1 : p = .name
    · subst h1; exact .name
    · by_cases h2 : p = .all
      · subst h2; exact .all
      · have e1 : ∀ e, p.evalStrict x ⟨n, some e⟩ = if e ≠ [] then x.addressPart p e else some e := by
          intro e; cases p <;> first | exact absurd rfl h1 | exact absurd rfl h2 | rfl
        have e2 : p.evalStrict x ⟨n, none⟩ = none := by
          cases p <;> first | exact absurd rfl h1 | exact absurd rfl h2 | rfl
        cases e with
        | none => rw [e2]; exact .missing h1
        | some e =>
          rw [e1]
          by_cases h3 : e = []
          · subst h3; simp only [ne_eq, not_true_eq_false, if_false]; exact .empty h1
          · rw [if_pos h3]; exact .part h1 h2 h3

theorem nth_map {α β : Type} (f : α → β) (l : List α) (k : Int) : nth (l.map f) k = (nth l k).map f := by
  unfold nth
  split <;> simp [← List.map_reverse]

theorem forall2_map {α β : Type} {f : α → β} {P : α → β → Prop} {l : List α} {m : List β} (hp : ∀ a b, P a b ↔ f a = b)
    (h : List.Forall₂ P l m) : m = l.map f := by
  induction h with
  | nil => rfl
  | cons h _ ih => rw [List.map_cons, ih, (hp _ _).mp h]

/-- **C88** Of a list, the index picks one item, or none and the value is empty; index 0 is all of them. -/
theorem item_value (x : Ext N R) (h : HVar N) (hd : Header N R) (raw : List UInt8) {items : List Scalar}
    (hi : Items x raw h.part hd items) (l : List Scalar) :
    evalPart x h hd raw = some l ↔
      (h.indexPart = 0 ∧ l = items) ∨ (h.indexPart ≠ 0 ∧ ∃ v, Picked items h.indexPart v ∧ l = [v]) ∨
      (h.indexPart ≠ 0 ∧ (∀ v, ¬ Picked items h.indexPart v) ∧ l = [.str []]) := by
  have e : evalPart x h hd raw = some (if h.indexPart = 0 then items else [(nth items h.indexPart).getD .empty]) := by
    have addr : ∀ p (l : List Addr) (ts : List (Option (List Char))), List.Forall₂ (PartOf x p) l ts →
        addresses x h p l = if h.indexPart = 0 then .inl (ts.map fun t => .str (t.getD []))
          else .inr (((nth l h.indexPart).bind fun a => p.evalStrict x a).map .str) := by
      intro p l ts hf
      unfold addresses
      rw [forall2_map (partOf_iff x p) hf, List.map_map]
      have : (fun a => ((p.evalStrict x a).map Scalar.str).getD .empty) = (fun t : Option (List Char) => Scalar.str (t.getD [])) ∘ p.evalStrict x := by
        funext a
        simp only [Function.comp]
        cases p.evalStrict x a <;> rfl
      rw [this]
    have pick : ∀ p (l : List Addr) (ts : List (Option (List Char))), List.Forall₂ (PartOf x p) l ts →
        ((((nth l h.indexPart).bind fun a => p.evalStrict x a).map Scalar.str).getD .empty) =
        (nth (ts.map fun t => Scalar.str (t.getD [])) h.indexPart).getD .empty := by
      intro p l ts hf
      rw [forall2_map (partOf_iff x p) hf, List.map_map, nth_map]
      cases nth l h.indexPart with
      | none => rfl
      | some a =>
        simp only [Option.bind_some, Option.map_some, Option.getD_some, Function.comp]
        cases p.evalStrict x a <;> rfl
    generalize hp : h.part = part at hi
    cases hi with
    | texts hv =>
      simp only [evalPart, evalPart', hp, hv]
      split
      · rfl
      · simp [nth_map]
    | shown hv hf =>
      simp only [evalPart, evalPart', hp, hv]
      have : ∀ a b, Shown a b ↔ (fun a : Addr => match a.toText with | .str s => s | _ => []) a = b := by
        intro a b
        rw [shown_iff]
        have : ∃ s, a.toText = .str s := by
          obtain ⟨n, e⟩ := a
          cases n <;> cases e <;> exact ⟨_, rfl⟩
        obtain ⟨s, hs⟩ := this
        simp [hs]
      rw [forall2_map this hf, List.map_map]
      have e2 : (Scalar.str ∘ fun a : Addr => match a.toText with | .str s => s | _ => []) = Addr.toText := by
        funext a
        obtain ⟨n, e⟩ := a
        cases n <;> cases e <;> rfl
      rw [e2]
      split
      · rfl
      · simp [nth_map]
    | parts hv hf =>
      simp only [evalPart, evalPart', hp, hv, addr _ _ _ hf]
      split
      · rfl
      · simp only [Option.map_some]
        rw [pick _ _ _ hf]
    | parsed hv hb hpa hf =>
      simp only [evalPart, evalPart', hp, hv, hb, Option.bind_some, hpa, addr _ _ _ hf]
      split
      · rfl
      · simp only [Option.map_some]
        rw [pick _ _ _ hf]
  rw [e]
  by_cases hk : h.indexPart = 0
  · simp [hk, eq_comm]
  · simp only [hk, if_false, ne_eq, not_false_eq_true, true_and, false_and, false_or, Option.some.injEq]
    cases hn : nth items h.indexPart with
    | none =>
      have ha : ∀ v, ¬ Picked items h.indexPart v := by
        intro v hv
        rw [← nth_iff _ hk, hn] at hv
        cases hv
      constructor
      · rintro rfl; exact .inr ⟨ha, rfl⟩
      · rintro (⟨v, hv, _⟩ | ⟨_, rfl⟩)
        · exact absurd hv (ha v)
        · rfl
    | some b =>
      have hb := (nth_iff _ hk _).mp hn
      constructor
      · rintro rfl; exact .inl ⟨b, hb, rfl⟩
      · rintro (⟨v, hv, rfl⟩ | ⟨ha, _⟩)
        · rw [← nth_iff _ hk, hn] at hv
          cases hv; rfl
        · exact absurd hb (ha b)

/-- **C88** The text of a header is one item: any other index is empty. -/
theorem text_value (x : Ext N R) (h : HVar N) (hd : Header N R) (raw : List UInt8) {t : List Char} (hp : h.part = .text)
    (hv : hd.value = .text t) :
    evalPart x h hd raw = some [.str (if h.indexPart ∈ [-1, 0, 1] then t else [])] := by
  simp only [evalPart, evalPart', hp, hv, HVar.single]
  by_cases h1 : h.indexPart = -1
  · simp [h1]
  · by_cases h2 : h.indexPart = 0
    · simp [h2]
    · by_cases h3 : h.indexPart = 1
      · simp [h3]
      · simp [h1, h2, h3, Scalar.empty]

/-- **C88** The raw text is that between the colon and the end of the header. -/
theorem raw_value (x : Ext N R) (h : HVar N) (hd : Header N R) (pre body post : List UInt8) (hp : h.part = .raw)
    (h1 : hd.offStart = pre.length) (h2 : hd.offEnd = (pre ++ body).length) :
    evalPart x h hd (pre ++ body ++ post) = some [.str (x.lossy (sanitize body))] := by
  have : get (pre ++ body ++ post) hd.offStart hd.offEnd = some body := by
    unfold get
    rw [h1, h2, if_pos ⟨by simp, by simp⟩, List.take_left', List.drop_left']
    · rfl
    · rfl
  simp only [evalPart, evalPart', hp, this, Option.map_some, Option.getD_some]

/-- **C88** The raw name is the text before the colon. -/
theorem raw_name_value (x : Ext N R) (h : HVar N) (hd : Header N R) (pre name post : List UInt8) (c : UInt8) (t : List Char)
    (hp : h.part = .rawName) (h1 : hd.offField = pre.length) (h2 : hd.offStart = (pre ++ name ++ [c]).length) (hu : x.utf8 name = some t) :
    evalPart x h hd (pre ++ name ++ [c] ++ post) = some [.str t] := by
  have e1 : hd.offStart ≠ 0 := by rw [h2]; simp
  have e2 : hd.offStart - 1 = (pre ++ name).length := by rw [h2]; simp
  have : get (pre ++ name ++ [c] ++ post) hd.offField (hd.offStart - 1) = some name := by
    unfold get
    rw [h1, e2, if_pos ⟨by simp, by simp⟩, List.append_assoc (pre ++ name), List.take_left', List.drop_left']
    · rfl
    · rfl
  simp only [evalPart, evalPart', hp, e1, if_false, this, hu, Option.map_some, Option.getD_some]

/-- **C88** The number of headers: `header.name[*].exists` has an element for each header of that name. -/
theorem exists_value [DecidableEq N] (x : Ext N R) (h : HVar N) (hs : List (Header N R)) (raw : List UInt8) (h0 : h.name ≠ [])
    (hk : h.indexHdr = 0) (hp : h.part = .«exists») :
    evalHeader x h hs raw = some (match hs.countP fun hd => hd.name ∈ h.name with
      | 0 => none
      | n + 1 => some (.array (List.replicate (n + 1) (.int 1)))) := by
  rw [header_value]
  have hv : ∀ l : List (Header N R), List.Forall₂ (fun hd l => evalPart x h hd raw = some l) l (List.replicate l.length [.int 1]) := by
    intro l
    induction l with
    | nil => exact .nil
    | cons hd l ih => exact .cons (by simp [evalPart, evalPart', hp]) ih
  refine ⟨_, .all h0 hk (hv _), ?_⟩
  rw [List.flatten_replicate_singleton, ← List.countP_eq_length_filter]
  cases hs.countP fun hd => hd.name ∈ h.name with
  | zero => exact .none
  | succ n => exact .array (by simp) (fun _ => .inl hk)

theorem part_total (x : Ext N R) (h : HVar N) (hd : Header N R) (raw : List UInt8) (hp : h.part ≠ .rawName ∨ hd.offStart ≠ 0) :
    ∃ l, evalPart x h hd raw = some l := by
  unfold evalPart evalPart'
  cases hh : h.part <;> simp only [Option.map_some, Option.some.injEq, exists_eq']
  rcases hp with hp | hp
  · exact absurd hh hp
  · simp [hp]

/-- **C88** Evaluation does not fail, except for the raw name of a header that was added by the script. -/
theorem header_total_partial [DecidableEq N] (x : Ext N R) (h : HVar N) (hs : List (Header N R)) (raw : List UInt8)
    (hp : h.part ≠ .rawName ∨ ∀ hd ∈ hs, hd.offStart ≠ 0) : ∃ r, evalHeader x h hs raw = some r := by
  have hpt : ∀ hd ∈ hs, ∃ l, evalPart x h hd raw = some l := by
    intro hd hm
    exact part_total x h hd raw (hp.imp id fun f => f hd hm)
  have hall : ∀ l : List (Header N R), (∀ hd ∈ l, ∃ l, evalPart x h hd raw = some l) → ∃ r, evalAll x h raw l = some r := by
    intro l hl
    induction l with
    | nil => exact ⟨[], rfl⟩
    | cons hd l ih =>
      obtain ⟨a, ha⟩ := hl hd (by simp)
      obtain ⟨b, hb⟩ := ih fun y hy => hl y (by simp [hy])
      exact ⟨a ++ b, by simp [evalAll, ha, hb]⟩
  have hanys : ∀ l : List (Header N R), (∀ hd ∈ l, ∃ l, evalPart x h hd raw = some l) → ∃ r, evalAnys x h raw l = some r := by
    intro l hl
    induction l with
    | nil => exact ⟨[], rfl⟩
    | cons hd l ih =>
      obtain ⟨a, ha⟩ : ∃ a, evalAny x h hd raw = some a := by
        unfold evalAny
        split
        · exact ⟨_, rfl⟩
        · exact ⟨_, rfl⟩
        · exact hl hd (by simp)
      obtain ⟨b, hb⟩ := ih fun y hy => hl y (by simp [hy])
      exact ⟨a ++ b, by simp [evalAnys, ha, hb]⟩
  have : ∃ l, values x h hs raw = some l := by
    unfold values
    split
    · dsimp only
      split
      · exact hall _ fun hd hm => hpt hd (List.mem_filter.mp hm).1
      · split
        · next hk _ hd hn =>
          rw [nth_occurrence _ _ hk] at hn
          obtain ⟨pre, post, rfl, _⟩ := hn
          exact hpt hd (by simp)
        · exact ⟨[], rfl⟩
    · exact hanys _ hpt
  obtain ⟨l, hl⟩ := this
  exact ⟨_, by rw [evalHeader, hl]; rfl⟩

/-! ### Examples and disagreements -/

/-- Nothing is parsed. -/
def noExt : Ext (List Char) Unit where
  nameText := id
  isMessageId _ := false
  isOther _ := true
  parseAddress _ := none
  parseDate _ := none
  parseId _ := .none
  parseUnstructured _ := none
  addressPart _ _ := none
  received _ _ := none
  utf8 b := some (b.map fun c => Char.ofNat c.toNat)
  lossy b := b.map fun c => Char.ofNat c.toNat
  trim := id

/-- `x: a` and `x: b`, and the message they are from -/
def hdrA : Header (List Char) Unit := ⟨['x'], .text ['a'], 0, 2, 6⟩
def hdrB : Header (List Char) Unit := ⟨['x'], .text ['b'], 6, 8, 12⟩
/-- added by the script -/
def hdrC : Header (List Char) Unit := ⟨['x'], .text ['c'], 0, 0, 0⟩
def someRaw : List UInt8 := [120, 58, 32, 97, 13, 10, 120, 58, 32, 98, 13, 10]

example : evalHeader noExt ⟨[['x']], .text, -1, -1⟩ [hdrA, hdrB] someRaw = some (some (.one (.str ['b']))) := by decide +kernel
example : evalHeader noExt ⟨[['x']], .raw, 0, -1⟩ [hdrA, hdrB] someRaw = some (some (.array [.str [' ', 'a'], .str [' ', 'b']])) := by decide +kernel
example : evalHeader noExt ⟨[['x']], .text, 3, -1⟩ [hdrA, hdrB] someRaw = some none := by decide +kernel
example : Occurrence [['x']] [hdrA, hdrB] (-1) hdrB := ⟨[hdrA], [], rfl, by decide, .inr ⟨by decide, by decide +kernel⟩⟩
example : Items (R := Unit) (noExt) someRaw (.address .all) ⟨['x'], .address [⟨none, some ['a']⟩, ⟨some ['b'], none⟩], 0, 0, 0⟩
    ([some ['a'], none].map fun t => .str (t.getD [])) :=
  .parts rfl (.cons .all (.cons .all .nil))

/-- The raw name of an added header: `offset_start - 1` overflows. -/
theorem raw_name_panics : evalHeader noExt ⟨[['x']], .rawName, 1, -1⟩ [hdrC, hdrA] someRaw = none := by decide +kernel

/-- The raw text of an added header is empty, and it is not found as an address or a date. -/
theorem added_raw : evalHeader noExt ⟨[['x']], .text, 1, -1⟩ [hdrC, hdrA] someRaw = some (some (.one (.str ['c']))) ∧
    evalHeader noExt ⟨[['x']], .raw, 1, -1⟩ [hdrC, hdrA] someRaw = some (some (.one (.str []))) := by decide +kernel

/-- After a star the index of the header is not looked at. -/
theorem star_index : parseHeader asName "*[1].exists[1]".toList = some ⟨[], .«exists», 1, 1⟩ ∧
    evalHeader noExt ⟨[], .«exists», 1, 1⟩ [hdrA, hdrB] someRaw = some (some (.array [.int 1, .int 1])) := by decide +kernel

end Sieve.Hvar
