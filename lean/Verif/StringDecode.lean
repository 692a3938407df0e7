import Verif.StringCodes

/-!
# Strings: the loop with encoded characters
-/

namespace Sieve.Str

variable {V F : Type}

/-- Text with an encoded character that has a good number first and ends with a number that stands for nothing.  The
code keeps the good ones *and* the text (`bad_last_number`). -/
def Spoiled (s : Bytes) : Prop :=
  ∃ p k code u b w rest, s = p ++ [36, 123] ++ k ++ 58 :: (u ++ w) ++ 125 :: rest ∧ Keyword k code ∧ Numbers code u b ∧
    b ≠ [] ∧ (∃ v c, u = v ++ [c] ∧ c ∈ ([32, 9, 13, 10] : Bytes)) ∧ w ≠ [] ∧ (∀ c ∈ w, (48 ≤ c ∧ c ≤ 57) ∨ (97 ≤ c ∧ c ≤ 102) ∨ (65 ≤ c ∧ c ≤ 70)) ∧ code (numeral w) = none

theorem expanded_append {x : Ext V F} {b : Bytes} {sgb : List (Piece V)} (h : Expanded x b sgb) {t : Bytes}
    {sg : List (Piece V)} (ht : Expanded x (36 :: t) sg) : Expanded x (b ++ 36 :: t) (sgb ++ sg) := by
  induction h with
  | nil => exact ht
  | token hw _ ih => rw [List.append_assoc, List.append_assoc]; exact .token hw ih
  | @keep c rest q hn _ ih =>
    refine .keep ?_ ih
    rintro w o r hw e
    have e' : (c :: rest) ++ 36 :: t = w ++ r := e
    rcases List.append_eq_append_iff.mp e' with ⟨as, h1, h2⟩ | ⟨bs, h1, h2⟩
    · cases as with
      | nil => exact hn w o [] hw (by simpa using h1.symm)
      | cons y as =>
        simp only [List.cons_append, List.cons.injEq] at h2
        obtain ⟨rfl, -⟩ := h2
        obtain ⟨n, hnm, rfl, -⟩ := hw
        have h3 : 123 :: (n ++ [125]) = rest ++ 36 :: as := by
          have : [36, 123] ++ n ++ [125] = c :: (rest ++ 36 :: as) := h1
          simpa using (List.cons.inj this).2
        have : (36 : UInt8) ∈ 123 :: (n ++ [125]) := by rw [h3]; simp
        simp only [List.mem_cons, List.mem_append, List.not_mem_nil, or_false] at this
        rcases this with h | h | h
        · exact absurd h (by decide)
        · exact absurd (hnm.chars _ h) (by decide)
        · exact absurd h (by decide)
    · exact hn w o bs hw h1

theorem expanded_split {x : Ext V F} {b t : Bytes} {sg : List (Piece V)} (h : Expanded x (b ++ 36 :: t) sg) :
    ∃ sgb sg', Expanded x b sgb ∧ Expanded x (36 :: t) sg' ∧ sg = sgb ++ sg' := by
  generalize hs : b ++ 36 :: t = s at h
  induction h generalizing b with
  | nil => simp at hs
  | @token w p rest q hw hr ih =>
    cases b with
    | nil => exact ⟨[], p ++ q, .nil, by rw [List.nil_append] at hs; rw [hs]; exact .token hw hr, rfl⟩
    | cons c b =>
      rcases List.append_eq_append_iff.mp hs with ⟨as, h1, h2⟩ | ⟨bs, h1, h2⟩
      · cases as with
        | nil =>
          obtain ⟨sgb, sg', e1, e2, e3⟩ := ih (b := []) (by simpa using h2)
          refine ⟨p ++ sgb, sg', ?_, e2, by rw [e3]; simp⟩
          have := Replaced.token hw e1
          rw [List.append_nil] at this
          rw [h1, List.append_nil] at this
          exact this
        | cons y as =>
          simp only [List.cons_append, List.cons.injEq] at h2
          obtain ⟨rfl, -⟩ := h2
          obtain ⟨n, hnm, rfl, -⟩ := hw
          have h3 : 123 :: (n ++ [125]) = b ++ 36 :: as := by
            have : [36, 123] ++ n ++ [125] = c :: (b ++ 36 :: as) := h1
            simpa using (List.cons.inj this).2
          have : (36 : UInt8) ∈ 123 :: (n ++ [125]) := by rw [h3]; simp
          simp only [List.mem_cons, List.mem_append, List.not_mem_nil, or_false] at this
          rcases this with h | h | h
          · exact absurd h (by decide)
          · exact absurd (hnm.chars _ h) (by decide)
          · exact absurd h (by decide)
      · obtain ⟨sgb, sg', e1, e2, e3⟩ := ih (b := bs) h2.symm
        exact ⟨p ++ sgb, sg', by rw [h1]; exact .token hw e1, e2, by rw [e3]; simp⟩
  | @keep c rest q hn hr ih =>
    cases b with
    | nil => exact ⟨[], .byte c :: q, .nil, by rw [List.nil_append] at hs; rw [hs]; exact .keep hn hr, rfl⟩
    | cons y b =>
      simp only [List.cons_append, List.cons.injEq] at hs
      obtain ⟨rfl, hs⟩ := hs
      obtain ⟨sgb, sg', e1, e2, e3⟩ := ih hs
      refine ⟨.byte y :: sgb, sg', .keep ?_ e1, e2, by rw [e3]; rfl⟩
      intro w o r hw e
      exact hn w o (r ++ 36 :: t) hw (by rw [← hs, ← List.cons_append, e]; simp)

/-- The result `r`, if there is one, is the expansion of `b` followed by the decoded `t`, after the pieces `done`; if
there is none, there is no expansion either, or there is a reason `bad`. -/
def Decodes (x : Ext V F) (bad : Prop) (r : Option (List (Item V F))) (done : List (Piece V)) (b t : Bytes) : Prop :=
  (∀ items, r = some items → ∃ d sg, Decoded t d ∧ Expanded x (b ++ d) sg ∧ pieces x items = done ++ sg) ∧
  (r = none → bad ∨ ∀ d sg, Decoded t d → ¬ Expanded x (b ++ d) sg)

theorem decodes_chunk {x : Ext V F} {bad : Prop} {r : Option (List (Item V F))} {done : List (Piece V)} {b : Bytes}
    (w : Bytes) {t : Bytes} (h : ∀ a c b, w = a ++ c :: b → NoToken EncodedChar (c :: b ++ t))
    (hm : Decodes x bad r done (b ++ w) t) : Decodes x bad r done b (w ++ t) := by
  refine ⟨fun items hr => ?_, fun hr => (hm.2 hr).imp_right fun hn d sg hd he => ?_⟩
  · obtain ⟨d, sg, h1, h2, h3⟩ := hm.1 items hr
    refine ⟨w ++ d, sg, (chunk_iff w h _).mpr ⟨d, by simp, h1⟩, ?_, h3⟩
    rw [← List.append_assoc]; exact h2
  · obtain ⟨d', e, hd'⟩ := (chunk_iff w h d).mp hd
    refine hn d' sg hd' ?_
    rw [e] at he
    rw [List.append_assoc]
    simpa using he

theorem decodes_byte {x : Ext V F} {bad : Prop} {r : Option (List (Item V F))} {done : List (Piece V)} {b : Bytes}
    {c : UInt8} {t : Bytes} (h : NoToken EncodedChar (c :: t)) (hm : Decodes x bad r done (b ++ [c]) t) :
    Decodes x bad r done b (c :: t) :=
  decodes_chunk [c] (fun a c' b e => by
    cases a with
    | nil => cases e; exact h
    | cons y a => simp at e) hm

theorem decodes_token {x : Ext V F} {bad : Prop} {r : Option (List (Item V F))} {done : List (Piece V)} {b w p : Bytes}
    {t : Bytes} (h : EncodedChar w (some p)) (hm : Decodes x bad r done (b ++ p) t) : Decodes x bad r done b (w ++ t) := by
  refine ⟨fun items hr => ?_, fun hr => (hm.2 hr).imp_right fun hn d sg hd he => ?_⟩
  · obtain ⟨d, sg, h1, h2, h3⟩ := hm.1 items hr
    refine ⟨p ++ d, sg, .token h h1, ?_, h3⟩
    rw [← List.append_assoc]; exact h2
  · obtain ⟨p', d', e, rfl, hd'⟩ := (token_iff encoded_prefixFree h d).mp hd
    cases e
    exact hn d' sg hd' (by rw [List.append_assoc]; exact he)

/-- Text that was expanded already. -/
theorem decodes_flush {x : Ext V F} {bad : Prop} {r : Option (List (Item V F))} {done sgb : List (Piece V)} {b n : Bytes}
    {t : Bytes} (hb : Expanded x b sgb)
    (hn : ∀ a c e, [36, 123] ++ n = a ++ c :: e → NoToken EncodedChar (c :: e ++ t))
    (hm : Decodes x bad r (done ++ sgb) [] ([36, 123] ++ n ++ t)) : Decodes x bad r done b ([36, 123] ++ n ++ t) := by
  refine ⟨fun items hr => ?_, fun hr => (hm.2 hr).imp_right fun hno d sg hd he => ?_⟩
  · obtain ⟨d, sg, h1, h2, h3⟩ := hm.1 items hr
    obtain ⟨d', hd, hd'⟩ := (chunk_iff _ hn d).mp h1
    refine ⟨d, sgb ++ sg, h1, ?_, by rw [h3]; simp⟩
    rw [hd] at h2 ⊢
    exact expanded_append hb h2
  · obtain ⟨d', e, hd'⟩ := (chunk_iff _ hn d).mp hd
    have e' : d = 36 :: (123 :: n ++ d') := by rw [e]; simp
    rw [e'] at he
    obtain ⟨_, sg', _, h2, _⟩ := expanded_split he
    rw [← e'] at h2
    exact hno d sg' hd h2

/-- Text before a reference that cannot be expanded. -/
theorem decodes_stuck {x : Ext V F} {bad : Prop} {done : List (Piece V)} {b n : Bytes} {t : Bytes}
    (hb : ∀ sg, ¬ Expanded x b sg) (hn : ∀ a c e, [36, 123] ++ n = a ++ c :: e → NoToken EncodedChar (c :: e ++ t)) :
    Decodes x bad none done b ([36, 123] ++ n ++ t) := by
  refine ⟨fun items hr => (by cases hr), fun _ => Or.inr fun d sg hd he => ?_⟩
  obtain ⟨d', e, hd'⟩ := (chunk_iff _ hn d).mp hd
  have e' : d = 36 :: (123 :: n ++ d') := by rw [e]; simp
  rw [e'] at he
  obtain ⟨sgb, _, h1, _, _⟩ := expanded_split he
  exact hb sgb h1

/-- A variable reference. -/
theorem decodes_reference {x : Ext V F} {bad : Prop} {r : Option (List (Item V F))} {done p : List (Piece V)} {n : Bytes}
    {t : Bytes} (hr : Reference x ([36, 123] ++ n ++ [125]) (some p))
    (hn : ∀ a c e, [36, 123] ++ (n ++ [125]) = a ++ c :: e → NoToken EncodedChar (c :: e ++ t))
    (hm : Decodes x bad r (done ++ p) [] t) : Decodes x bad r done [] ([36, 123] ++ n ++ 125 :: t) := by
  have e : [36, 123] ++ n ++ 125 :: t = [36, 123] ++ (n ++ [125]) ++ t := by simp
  have e2 : ∀ d : Bytes, [] ++ ([36, 123] ++ (n ++ [125]) ++ d) = ([36, 123] ++ n ++ [125]) ++ d := by intro d; simp
  refine ⟨fun items hi => ?_, fun hi => (hm.2 hi).imp_right fun hno d sg hd he => ?_⟩
  · obtain ⟨d, sg, h1, h2, h3⟩ := hm.1 items hi
    refine ⟨[36, 123] ++ (n ++ [125]) ++ d, p ++ sg, ?_, ?_, by rw [h3]; simp⟩
    · rw [e]; exact (chunk_iff _ hn _).mpr ⟨d, by simp, h1⟩
    · rw [e2]; exact .token hr h2
  · rw [e] at hd
    obtain ⟨d', e', hd'⟩ := (chunk_iff _ hn d).mp hd
    rw [List.map_id] at e'
    rw [e', e2] at he
    obtain ⟨_, q, _, _, hq⟩ := (token_iff (reference_prefixFree x) hr sg).mp he
    exact hno d' q hd' hq

/-- A variable reference that is an error. -/
theorem decodes_fail {x : Ext V F} {bad : Prop} {done : List (Piece V)} {n : Bytes}
    {t : Bytes} (hr : Reference x ([36, 123] ++ n ++ [125]) none)
    (hn : ∀ a c e, [36, 123] ++ (n ++ [125]) = a ++ c :: e → NoToken EncodedChar (c :: e ++ t)) :
    Decodes x bad none done [] ([36, 123] ++ n ++ 125 :: t) := by
  have e : [36, 123] ++ n ++ 125 :: t = [36, 123] ++ (n ++ [125]) ++ t := by simp
  have e2 : ∀ d : Bytes, [] ++ ([36, 123] ++ (n ++ [125]) ++ d) = ([36, 123] ++ n ++ [125]) ++ d := by intro d; simp
  refine ⟨fun items hi => (by cases hi), fun _ => Or.inr fun d sg hd he => ?_⟩
  rw [e] at hd
  obtain ⟨d', e', hd'⟩ := (chunk_iff _ hn d).mp hd
  rw [List.map_id] at e'
  rw [e', e2] at he
  obtain ⟨_, q, h, _, _⟩ := (token_iff (reference_prefixFree x) hr sg).mp he
  cases h

/-- Text with an encoded character in which a complete number is no Unicode character. -/
def BadUnicode (s : Bytes) : Prop :=
  ∃ p k u b w c rest, s = p ++ [36, 123] ++ k ++ 58 :: (u ++ w) ++ c :: rest ∧ Keyword k utf8 ∧ Numbers utf8 u b ∧
    (u = [] ∨ ∃ v c, u = v ++ [c] ∧ c ∈ ([32, 9, 13, 10] : Bytes)) ∧ w ≠ [] ∧
    (∀ c ∈ w, (48 ≤ c ∧ c ≤ 57) ∨ (97 ≤ c ∧ c ≤ 102) ∨ (65 ≤ c ∧ c ≤ 70)) ∧ c ∈ ([32, 9, 13, 10, 125] : Bytes) ∧
    utf8 (numeral w) = none

theorem decodeWord_error {u : Bool} {w : Bytes} (hw : ∀ c ∈ w, HexByte c) (h : decodeWord u w = none) :
    u = true ∧ utf8 (numeral w) = none := by
  rw [← hexValue_eq hw]
  cases u with
  | false =>
    simp only [decodeWord, Bool.false_eq_true, if_false] at h
    split_ifs at h
  | true =>
    refine ⟨rfl, ?_⟩
    simp only [decodeWord, if_true] at h
    split_ifs at h with hn
    cases hu : utf8 (hexValue w) with
    | none => rfl
    | some v => simp [hu] at h

section Run
variable [DecidableEq V] [DecidableEq F]

theorem addDecoded_pieces (x : Ext V F) (items : List (Item V F)) (buf : Bytes) (d e : Bool) {r : List (Item V F)}
    (h : addDecoded x items buf d e = some r) : ∃ sg, Expanded x buf sg ∧ pieces x r = pieces x items ++ sg := by
  unfold addDecoded at h
  have hm := plain_meets x buf
  cases ht : tokenizePlain x buf with
  | none => rw [ht] at h; cases h
  | some its =>
    rw [ht] at h hm
    obtain ⟨sg, h1, h2⟩ := hm
    simp only [Option.map_some, Option.some.injEq] at h
    exact ⟨sg, h1, by rw [← h, pieces_append, h2]; simp⟩

theorem addDecoded_none (x : Ext V F) (items : List (Item V F)) (buf : Bytes) (d e : Bool)
    (h : addDecoded x items buf d e = none) (sg : List (Piece V)) : ¬ Expanded x buf sg := by
  unfold addDecoded at h
  have hm := plain_meets x buf
  cases ht : tokenizePlain x buf with
  | none => rw [ht] at hm; exact hm sg
  | some its => rw [ht] at h; cases h

theorem flush_none (x : Ext V F) (s : St V F) (h : flush (addDecoded x) s = none) (sg : List (Piece V)) :
    ¬ Expanded x s.buf sg := by
  unfold flush at h
  by_cases h0 : s.buf = []
  · rw [if_pos h0] at h; cases h
  · rw [if_neg h0] at h
    cases ha : addDecoded x s.items s.buf s.digits s.dots with
    | none => exact addDecoded_none x _ _ _ _ ha sg
    | some r => rw [ha] at h; cases h

theorem flush_decoded (x : Ext V F) (s : St V F) {s' : St V F} (h : flush (addDecoded x) s = some s') :
    (∃ sg, Expanded x s.buf sg ∧ pieces x s'.items = pieces x s.items ++ sg) ∧ s'.buf = [] ∧
      s'.start = s.start ∧ s'.isNum = s.isNum ∧ s'.hasNs = s.hasNs ∧ s'.hex = s.hex ∧ s'.mode = s.mode := by
  unfold flush at h
  by_cases h0 : s.buf = []
  · rw [if_pos h0] at h
    cases h
    exact ⟨⟨[], by rw [h0]; exact .nil, by simp⟩, h0, rfl, rfl, rfl, rfl, rfl⟩
  · rw [if_neg h0] at h
    cases ha : addDecoded x s.items s.buf s.digits s.dots with
    | none => rw [ha] at h; cases h
    | some r =>
      rw [ha] at h
      simp only [Option.map_some, Option.some.injEq] at h
      subst h
      exact ⟨addDecoded_pieces x _ _ _ _ ha, rfl, rfl, rfl, rfl, rfl, rfl⟩

theorem finish_decoded (x : Ext V F) (bytes : Bytes) (s : St V F) {t : Bytes}
    (h : (match s.mode with
      | .text => s.buf
      | .name => s.buf ++ slice bytes (s.start - 2) bytes.length
      | .encoded _ init => s.buf.take init ++ slice bytes (s.start - 2) bytes.length) = t) {r : List (Item V F)}
    (hf : finish (addDecoded x) bytes s = some r) : ∃ sg, Expanded x t sg ∧ pieces x r = pieces x s.items ++ sg := by
  have key : ∀ s' : St V F, s'.buf = t → s'.items = s.items →
      (do
        let items ← if s'.buf = [] then some s'.items else addDecoded x s'.items s'.buf s'.digits s'.dots
        return if items = [] then [Item.text []] else items) = some r →
      ∃ sg, Expanded x t sg ∧ pieces x r = pieces x s.items ++ sg := by
    intro s' hb hi hd
    have last : ∀ l : List (Item V F), pieces x (if l = [] then [Item.text []] else l) = pieces x l := by
      intro l
      by_cases h1 : l = []
      · rw [if_pos h1, h1]; rfl
      · rw [if_neg h1]
    by_cases h0 : s'.buf = []
    · rw [if_pos h0] at hd
      have hd' : (if s'.items = [] then [Item.text []] else s'.items) = r := by simpa using hd
      refine ⟨[], by rw [← hb, h0]; exact .nil, ?_⟩
      rw [← hd', last, hi]; simp
    · rw [if_neg h0] at hd
      cases ha : addDecoded x s'.items s'.buf s'.digits s'.dots with
      | none => rw [ha] at hd; cases hd
      | some l =>
        rw [ha] at hd
        have hd' : (if l = [] then [Item.text []] else l) = r := by simpa using hd
        obtain ⟨sg, h1, h2⟩ := addDecoded_pieces x _ _ _ _ ha
        exact ⟨sg, hb ▸ h1, by rw [← hd', last, h2, hi]⟩
  unfold finish at hf
  revert h hf
  cases hm : s.mode with
  | text => intro h; exact key s h rfl
  | name => intro h; exact key { s with buf := s.buf ++ slice bytes (s.start - 2) bytes.length } h rfl
  | encoded u init => intro h; exact key { s with buf := s.buf.take init ++ slice bytes (s.start - 2) bytes.length } h rfl

theorem finish_none (x : Ext V F) (bytes : Bytes) (s : St V F) {t : Bytes}
    (h : (match s.mode with
      | .text => s.buf
      | .name => s.buf ++ slice bytes (s.start - 2) bytes.length
      | .encoded _ init => s.buf.take init ++ slice bytes (s.start - 2) bytes.length) = t)
    (hf : finish (addDecoded x) bytes s = none) (sg : List (Piece V)) : ¬ Expanded x t sg := by
  have key : ∀ s' : St V F, s'.buf = t →
      (do
        let items ← if s'.buf = [] then some s'.items else addDecoded x s'.items s'.buf s'.digits s'.dots
        return if items = [] then [Item.text []] else items) = none → ¬ Expanded x t sg := by
    intro s' hb hd
    by_cases h0 : s'.buf = []
    · rw [if_pos h0] at hd; cases hd
    · rw [if_neg h0] at hd
      cases ha : addDecoded x s'.items s'.buf s'.digits s'.dots with
      | none => rw [← hb]; exact addDecoded_none x _ _ _ _ ha sg
      | some l => rw [ha] at hd; cases hd
  unfold finish at hf
  revert h hf
  cases hm : s.mode with
  | text => intro h; exact key s h
  | name => intro h; exact key { s with buf := s.buf ++ slice bytes (s.start - 2) bytes.length } h
  | encoded u init => intro h; exact key { s with buf := s.buf.take init ++ slice bytes (s.start - 2) bytes.length } h

/-- The end of the string: `t` is what is in the buffer at last. -/
theorem finish_decodes {x : Ext V F} {bad : Prop} (bytes : Bytes) (s : St V F) {b w : Bytes}
    (h : (match s.mode with
      | .text => s.buf
      | .name => s.buf ++ slice bytes (s.start - 2) bytes.length
      | .encoded _ init => s.buf.take init ++ slice bytes (s.start - 2) bytes.length) = b ++ w)
    (hw : ∀ a c e, w = a ++ c :: e → NoToken EncodedChar (c :: e ++ [])) :
    Decodes x bad (finish (addDecoded x) bytes s) (pieces x s.items) b w := by
  have key : ∀ d, Decoded w d ↔ d = w := by
    intro d
    have := chunk_iff (keep := id) w hw d
    rw [List.append_nil] at this
    refine this.trans ?_
    constructor
    · rintro ⟨q, rfl, hq⟩
      have : q = [] := replaced_unique encoded_prefixFree hq .nil
      simp [this]
    · rintro rfl; exact ⟨[], by simp, .nil⟩
  refine ⟨fun items hr => ?_, fun hr => Or.inr fun d sg hd he => ?_⟩
  · obtain ⟨sg, h1, h2⟩ := finish_decoded x bytes s h hr
    exact ⟨w, sg, (key w).mpr rfl, h1, h2⟩
  · rw [(key d).mp hd] at he
    exact finish_none x bytes s h hr sg he

theorem step_encoded (x : Ext V F) (decoded : Bool) (add) (bytes : Bytes) (pos : Nat) (s : St V F) (c : UInt8)
    {u : Bool} {init : Nat} (hm : s.mode = .encoded u init) : step x decoded add bytes pos s c =
      (inEncoded bytes pos u init s c).map fun r => { (if r.2 then recover bytes pos r.1 else r.1) with last := c } := by
  simp only [step, hm]
  cases inEncoded bytes pos u init s c with
  | none => rfl
  | some r => rfl

/-- The loop in text. -/
structure Text1 (x : Ext V F) (pre : Bytes) (s : St V F) (done : List (Piece V)) (b held : Bytes) : Prop where
  mode : s.mode = .text
  hex : s.hex = none
  done : done = pieces x s.items
  held : s.last = 36 ∧ held = [36] ∧ (∃ p, pre = p ++ [36]) ∧ s.buf = b ++ [36] ∨ s.last ≠ 36 ∧ held = [] ∧ b = s.buf

/-- The loop in an encoded character: `u` are numbers already read, `w` is the beginning of another one. -/
structure Enc (pre : Bytes) (s : St V F) (k u w : Bytes) (uni : Bool) (b0 b : Bytes) : Prop where
  mode : s.mode = .encoded uni b0.length
  pre : ∃ p, pre = p ++ [36, 123] ++ (k ++ 58 :: (u ++ w)) ∧ s.start = p.length + 2 ∧
    s.hex = if w = [] then none else some (p.length + 2 + k.length + 1 + u.length)
  keyword : Keyword k (codeOf uni)
  numbers : Numbers (codeOf uni) u b
  boundary : Boundary u
  word : ∀ c ∈ w, HexByte c
  buf : s.buf = b0 ++ b

/-- Text up to and including the byte `c`, in which no encoded character begins. -/
theorem decodes_text {x : Ext V F} {bad : Prop} {r : Option (List (Item V F))} {pre : Bytes} {s : St V F} {c : UInt8} {b w : Bytes}
    {t : Bytes} (hm : s.mode = .text) (hx : s.hex = none) (hl : s.last = c) (hb : s.buf = b ++ w ++ [c])
    (hw : ∀ a d e, w = a ++ d :: e → NoToken EncodedChar (d :: e ++ c :: t))
    (ih : ∀ done b held, Text1 x (pre ++ [c]) s done b held → Decodes x bad r done b (held ++ t)) :
    Decodes x bad r (pieces x s.items) b (w ++ c :: t) := by
  refine decodes_chunk w hw ?_
  by_cases h : c = 36
  · subst h
    exact ih _ _ [36] ⟨hm, hx, rfl, Or.inl ⟨hl, rfl, ⟨pre, rfl⟩, hb⟩⟩
  · refine decodes_byte (encoded_dollar h t) ?_
    have := ih _ s.buf [] ⟨hm, hx, rfl, Or.inr ⟨by rw [hl]; exact h, rfl, rfl⟩⟩
    rw [hb] at this
    exact this

theorem name_not_dollar {n : Bytes} (h : Begins n) : (36 : UInt8) ∉ n := not_mem_name h.chars (by decide)

theorem inText_hex (pos : Nat) (s : St V F) (c : UInt8) : (inText pos s c).hex = s.hex := by
  unfold inText; split_ifs <;> rfl

/-- The keyword before a colon. -/
theorem colon_keyword {n : Bytes} : (∃ code, Keyword n code) ↔
    sameWord n [104, 101, 120] = true ∨ sameWord n [117, 110, 105, 99, 111, 100, 101] = true := by
  have e1 : sameWord n [104, 101, 120] = true ↔ n.map lowerByte = [104, 101, 120] := by
    simp [sameWord]; rfl
  have e2 : sameWord n [117, 110, 105, 99, 111, 100, 101] = true ↔ n.map lowerByte = [117, 110, 105, 99, 111, 100, 101] := by
    simp [sameWord]; rfl
  rw [e1, e2]
  constructor
  · rintro ⟨code, h⟩
    cases h with
    | hex h => exact Or.inl h
    | unicode h => exact Or.inr h
  · rintro (h | h)
    · exact ⟨_, .hex h⟩
    · exact ⟨_, .unicode h⟩

theorem slice_word {p k u w rest : Bytes} :
    slice (p ++ [36, 123] ++ (k ++ 58 :: (u ++ w)) ++ rest) (p.length + 2 + k.length + 1 + u.length)
      (p ++ [36, 123] ++ (k ++ 58 :: (u ++ w))).length = w := by
  unfold slice
  rw [List.take_left]
  have e : p ++ [36, 123] ++ (k ++ 58 :: (u ++ w)) = (p ++ [36, 123] ++ k ++ [58] ++ u) ++ w := by simp
  have e2 : p.length + 2 + k.length + 1 + u.length = (p ++ [36, 123] ++ k ++ [58] ++ u).length := by simp; omega
  rw [e, e2, List.drop_left]

/-- Text of an encoded character that turned out to be plain text. -/
theorem recover_encoded {bytes pre rest p m b0 : Bytes} {s : St V F} {c : UInt8} (hb : bytes = pre ++ c :: rest)
    (hp : pre = p ++ [36, 123] ++ m) (hs : s.start = p.length + 2)
    (hbuf : (match s.mode with | .encoded _ init => s.buf.take init | _ => s.buf) = b0) :
    (recover bytes pre.length s).buf = b0 ++ ([36, 123] ++ m) ++ [c] := by
  have e1 : slice bytes (s.start - 2) (pre.length + 1) = [36, 123] ++ m ++ [c] := by
    rw [hb, hp]; exact slice_from hs
  have e2 : (recover bytes pre.length s).buf =
      (match s.mode with | .encoded _ init => s.buf.take init | _ => s.buf) ++ slice bytes (s.start - 2) (pre.length + 1) := rfl
  rw [e2, e1, hbuf]; simp

theorem decode_loop (x : Ext V F) (bytes : Bytes) (hsp : ¬ Spoiled bytes) : ∀ (rest pre : Bytes) (s : St V F),
    bytes = pre ++ rest →
    (∀ done b held, Text1 x pre s done b held →
      Decodes x (BadUnicode bytes) (run x true (addDecoded x) bytes pre.length rest s) done b (held ++ rest)) ∧
    (∀ n, Reads pre s n → s.hex = none → Decodes x (BadUnicode bytes) (run x true (addDecoded x) bytes pre.length rest s)
      (pieces x s.items) s.buf ([36, 123] ++ n ++ rest)) ∧
    (∀ k u w uni b0 b, Enc pre s k u w uni b0 b → Decodes x (BadUnicode bytes) (run x true (addDecoded x) bytes pre.length rest s)
      (pieces x s.items) b0 ([36, 123] ++ (k ++ 58 :: (u ++ w)) ++ rest)) := by
  intro rest
  induction rest with
  | nil =>
    intro pre s hb
    rw [List.append_nil] at hb
    subst hb
    refine ⟨fun done b held h => ?_, fun n h hx => ?_, fun k u w uni b0 b h => ?_⟩
    · rw [List.append_nil, h.done]
      refine finish_decodes bytes s ?_ ?_
      · rw [h.mode]
        rcases h.held with ⟨_, rfl, _, hbuf⟩ | ⟨_, rfl, rfl⟩
        · exact hbuf
        · simp
      · rcases h.held with ⟨_, rfl, _, hbuf⟩ | ⟨_, rfl, rfl⟩
        · intro a c e he
          cases a with
          | nil => cases he; exact encoded_end
          | cons y a => simp at he
        · intro a c e he; simp at he
    · obtain ⟨p, hpre, hst⟩ := h.pre
      rw [List.append_nil]
      refine finish_decodes bytes s ?_ (no_encoded (name_not_dollar h.begins) ?_)
      · rw [h.mode]
        show s.buf ++ slice bytes (s.start - 2) bytes.length = _
        rw [hpre, slice_end hst]
      · rw [List.append_nil]; exact open_encoded (not_mem_name h.begins.chars (by decide))
    · obtain ⟨p, hpre, hst, _⟩ := h.pre
      have hmem : ∀ d : UInt8, ¬ NameByte d → ¬ (HexByte d ∨ d ∈ ([32, 9, 13, 10] : Bytes)) → d ∉ k ++ 58 :: (u ++ w) := by
        intro d h1 h2 hd
        simp only [List.mem_append, List.mem_cons] at hd
        rcases hd with hd | rfl | hd | hd
        · rcases (keyword_letters h.keyword).2 d hd with hh | hh
          · exact h1 (Or.inl hh)
          · exact h1 (Or.inr (Or.inl hh))
        · exact h1 (by decide)
        · exact h2 (numbers_bytes h.numbers d hd)
        · exact h2 (Or.inl (h.word d hd))
      rw [List.append_nil]
      refine finish_decodes bytes s ?_ (no_encoded (hmem 36 (by decide) (by decide)) ?_)
      · rw [h.mode]
        show s.buf.take b0.length ++ slice bytes (s.start - 2) bytes.length = _
        rw [hpre, slice_end hst, h.buf, List.take_left]
      · rw [List.append_nil]; exact open_encoded (hmem 125 (by decide) (by decide))
  | cons c rest ih =>
    intro pre s hb
    have hb' : bytes = (pre ++ [c]) ++ rest := by rw [hb]; simp
    have hlen : pre.length + 1 = (pre ++ [c]).length := by simp
    refine ⟨fun done b held h => ?_, fun n h hx => ?_, fun k u w uni b0 b h => ?_⟩
    · have hs := step_text x true (addDecoded x) bytes pre.length s c h.mode
      rw [run_cons _ _ _ _ _ _ _ _ hs, hlen]
      obtain ⟨ih1, ih2, _⟩ := ih (pre ++ [c]) { inText pre.length s c with last := c } hb'
      by_cases hc : c = 123 ∧ s.last = 36
      · rcases h.held with ⟨_, rfl, ⟨p, hp⟩, hbuf⟩ | ⟨h36, _⟩
        · obtain ⟨rfl, hl⟩ := hc
          have e : inText pre.length s 123 = { s with buf := s.buf.dropLast, start := pre.length + 1, isNum := true, hasNs := false, mode := .name } := by
            unfold inText; rw [if_pos ⟨rfl, hl⟩]
          have := ih2 [] ⟨by rw [e], ⟨p, by rw [hp]; simp, by rw [e, hp]; simp⟩, .nil, by rw [e]; simp, by rw [e]; simp⟩
            (by rw [e]; exact h.hex)
          rw [e] at this
          rw [e, h.done]
          have hd : s.buf.dropLast = b := by rw [hbuf]; simp
          rw [hd] at this ⊢
          simpa using this
        · exact absurd hc.2 h36
      · obtain ⟨e1, e2, e3⟩ := inText_push pre.length s c h.mode hc
        have hd : done = pieces x (inText pre.length s c).items := by rw [e3]; exact h.done
        have hxx : (inText pre.length s c).hex = none := by rw [inText_hex]; exact h.hex
        rw [hd]
        rcases h.held with ⟨hl, rfl, ⟨p, hp⟩, hbuf⟩ | ⟨h36, rfl, rfl⟩
        · have hc' : c ≠ 123 := fun e => hc ⟨e, hl⟩
          refine decodes_text (s := { inText pre.length s c with last := c }) (w := [36]) e1 hxx rfl ?_ ?_ ih1
          · show (inText pre.length s c).buf = _
            rw [e2, hbuf]
          · intro a d e he
            cases a with
            | nil => cases he; exact encoded_brace hc' rest
            | cons y a => simp at he
        · refine decodes_text (s := { inText pre.length s c with last := c }) (w := []) e1 hxx rfl ?_ ?_ ih1
          · show (inText pre.length s c).buf = _
            rw [e2]; simp
          · intro a d e he; simp at he
    · have hs := step_variable x true (addDecoded x) bytes pre.length s c h.mode
      obtain ⟨p, hpre, hst⟩ := h.pre
      -- a byte of the name
      have more : ∀ s' : St V F, inVariable x true (addDecoded x) bytes pre.length s c = some (s', false) →
          NameByte c → (c = 58 → 46 ∈ n) → s'.mode = .name → s'.start = s.start →
          (s'.isNum = true ↔ s.isNum = true ∧ (48 ≤ c ∧ c ≤ 57)) → (s'.hasNs = true ↔ s.hasNs = true ∨ c = 46) →
          s'.items = s.items → s'.buf = s.buf → s'.hex = s.hex →
          Decodes x (BadUnicode bytes) (run x true (addDecoded x) bytes pre.length (c :: rest) s) (pieces x s.items) s.buf
            ([36, 123] ++ n ++ c :: rest) := by
        intro s' hv hc h58 hm hst' hn hns hi hbuf hx'
        rw [hv] at hs
        rw [run_cons _ _ _ _ _ _ _ _ hs, hlen]
        have := (ih (pre ++ [c]) { s' with last := c } hb').2.1 (n ++ [c])
          (reads_snoc (s' := { s' with last := c }) h c hc h58 hm hst' hn hns) (by show s'.hex = none; rw [hx', hx])
        have e2 : [36, 123] ++ (n ++ [c]) ++ rest = [36, 123] ++ n ++ c :: rest := by simp
        rw [e2] at this
        rw [← hi, ← hbuf]
        exact this
      -- plain text after all
      have bad : ∀ s' : St V F, inVariable x true (addDecoded x) bytes pre.length s c = some (s', true) →
          s'.start = s.start → (∀ u i, s'.mode ≠ .encoded u i) →
          NoToken EncodedChar ([36, 123] ++ n ++ c :: rest) →
          Decodes x (BadUnicode bytes) (run x true (addDecoded x) bytes pre.length (c :: rest) s) (pieces x s'.items) s'.buf
            ([36, 123] ++ n ++ c :: rest) := by
        intro s' hv hst' hm hno
        rw [hv] at hs
        rw [run_cons _ _ _ _ _ _ _ _ hs, hlen]
        have hbuf : (recover bytes pre.length s').buf = s'.buf ++ ([36, 123] ++ n) ++ [c] :=
          recover_encoded hb hpre (by rw [hst', hst]) (by
            cases hmm : s'.mode with
            | encoded u i => exact absurd hmm (hm u i)
            | text => rfl
            | name => rfl)
        exact decodes_text (s := { recover bytes pre.length s' with last := c }) (b := s'.buf) (w := [36, 123] ++ n) rfl rfl rfl
          hbuf (no_encoded (name_not_dollar h.begins) hno) (ih (pre ++ [c]) _ hb').1
      have hmode : ∀ u i, s.mode ≠ .encoded u i := by rw [h.mode]; simp
      by_cases h1 : isNameChar c = true
      · obtain ⟨hc, h46, h58, hd⟩ := isNameChar_spec h1
        refine more { s with isNum := false } (by unfold inVariable; rw [if_pos h1]) hc (fun e => absurd e h58) h.mode rfl
          ?_ ?_ rfl rfl rfl
        · simp [hd]
        · simp [h46]
      by_cases h2 : c = 46
      · subst h2
        exact more { s with isNum := false, hasNs := true } rfl (by decide) (fun e => absurd e (by decide)) h.mode rfl (by simp)
          (by simp) rfl rfl rfl
      by_cases h3 : isDigit c = true
      · have hd := isDigit_spec.mp h3
        refine more s (by unfold inVariable; rw [if_neg h1, if_neg h2, if_pos h3]) (Or.inr (Or.inr (Or.inl hd))) ?_ h.mode rfl
          ?_ ?_ rfl rfl rfl
        · rintro rfl; exact absurd hd (by decide)
        · simp [hd]
        · simp [h2]
      by_cases h4 : c = 125
      · subst h4
        have hv : inVariable x true (addDecoded x) bytes pre.length s 125 = endVariable x (addDecoded x) bytes pre.length s := by
          unfold inVariable; rw [if_neg h1, if_neg h2, if_neg h3, if_pos rfl]
        have hlt : s.start < pre.length ↔ n ≠ [] := by
          rw [hst, hpre, ← List.length_pos_iff]; simp
        have hno := name_no_encoded h.begins (c := 125) rest (Or.inl (by decide))
        by_cases hn : n = []
        · refine bad s ?_ rfl hmode hno
          rw [hv]; unfold endVariable; rw [if_neg (fun hh => hlt.mp hh hn)]
        · cases hf : flush (addDecoded x) s with
          | none =>
            have hev : endVariable x (addDecoded x) bytes pre.length s = none := by
              unfold endVariable
              rw [if_pos (hlt.mpr hn), hf]; rfl
            rw [hv, hev] at hs
            rw [run_fail _ _ _ _ _ _ _ _ hs]
            exact decodes_stuck (flush_none x s hf) (no_encoded (name_not_dollar h.begins) hno)
          | some s1 =>
            obtain ⟨⟨sgb, hsg, hp1⟩, hb1, hs1, hn1, hns1, hx1, hm1⟩ := flush_decoded x s hf
            have hname : slice bytes s1.start pre.length = n := by
              rw [hs1, hb, hpre]; exact slice_name hst
            have hr : (if s1.isNum then x.numbered n else x.named s1.hasNs n) = x.resolve n := by
              rw [hn1, hns1]; exact resolve_eq h
            have hev : endVariable x (addDecoded x) bytes pre.length s = match x.resolve n with
                | .var v => some ({ s1 with items := s1.items ++ [.var v], mode := .text }, false)
                | .none => some ({ s1 with mode := .text }, false)
                | .invalid => some ({ s1 with mode := .text }, true)
                | .fail => none := by
              unfold endVariable
              rw [if_pos (hlt.mpr hn), hf]
              show (match if s1.isNum then x.numbered (slice bytes s1.start pre.length)
                else x.named s1.hasNs (slice bytes s1.start pre.length) with
                | Look.var v => some ({ s1 with items := s1.items ++ [Item.var v], mode := Mode.text }, false)
                | .none => some ({ s1 with mode := .text }, false)
                | .invalid => some ({ s1 with mode := .text }, true)
                | .fail => none) = _
              rw [hname, hr]
            have hnm := h.begins.name hn
            have hno' := no_encoded (name_not_dollar h.begins) hno
            have hno2 : ∀ a d e, [36, 123] ++ (n ++ [125]) = a ++ d :: e → NoToken EncodedChar (d :: e ++ rest) := by
              refine no_encoded (n := n ++ [125]) ?_ (by simpa using hno)
              intro hm
              rcases List.mem_append.mp hm with hm | hm
              · exact name_not_dollar h.begins hm
              · simp at hm
            refine decodes_flush hsg hno' ?_
            rw [← hp1]
            cases hres : x.resolve n with
            | var v =>
              rw [hres] at hev
              rw [hv, hev] at hs
              rw [run_cons _ _ _ _ _ _ _ _ hs, hlen]
              refine decodes_reference (p := [.value v]) ⟨n, hnm, rfl, by rw [hres]⟩ hno2 ?_
              refine (ih (pre ++ [125]) _ hb').1 _ _ [] ⟨rfl, ?_, ?_, Or.inr ⟨by show (125 : UInt8) ≠ 36; decide, rfl, ?_⟩⟩
              · show s1.hex = none
                rw [hx1, hx]
              · show _ = pieces x (s1.items ++ [.var v])
                rw [pieces_append]; simp [pieces, Item.pieces]
              · show [] = s1.buf
                rw [hb1]
            | none =>
              rw [hres] at hev
              rw [hv, hev] at hs
              rw [run_cons _ _ _ _ _ _ _ _ hs, hlen]
              refine decodes_reference (p := []) ⟨n, hnm, rfl, by rw [hres]⟩ hno2 ?_
              refine (ih (pre ++ [125]) _ hb').1 _ _ [] ⟨rfl, ?_, ?_, Or.inr ⟨by show (125 : UInt8) ≠ 36; decide, rfl, ?_⟩⟩
              · show s1.hex = none
                rw [hx1, hx]
              · show _ = pieces x s1.items
                simp
              · show [] = s1.buf
                rw [hb1]
            | invalid =>
              rw [hres] at hev
              have := bad { s1 with mode := .text } (by rw [hv, hev]) hs1 (by simp) hno
              have e : ({ s1 with mode := .text } : St V F).buf = [] := hb1
              rw [e] at this
              exact this
            | fail =>
              rw [hres] at hev
              rw [hv, hev] at hs
              rw [run_fail _ _ _ _ _ _ _ _ hs]
              exact decodes_fail ⟨n, hnm, rfl, by rw [hres]⟩ hno2
      by_cases h5 : c = 58
      · subst h5
        have hv : inVariable x true (addDecoded x) bytes pre.length s 58 = some (colon true bytes pre.length s) := by
          unfold inVariable; rw [if_neg h1, if_neg h2, if_neg h3, if_neg h4, if_pos rfl]
        have hname : slice bytes s.start pre.length = n := by
          rw [hb, hpre]; exact slice_name hst
        by_cases h6 : s.hasNs = true
        · refine more { s with isNum := false } ?_ (by decide) (fun _ => h.ns.mp h6) h.mode rfl (by simp) (by simp) rfl rfl rfl
          rw [hv]; simp [colon, h6]
        · have hns : s.hasNs = false := by simpa using h6
          -- a keyword
          have enter : ∀ uni, Keyword n (codeOf uni) →
              colon true bytes pre.length s = ({ s with mode := .encoded uni s.buf.length }, false) →
              Decodes x (BadUnicode bytes) (run x true (addDecoded x) bytes pre.length (58 :: rest) s) (pieces x s.items) s.buf
                ([36, 123] ++ n ++ 58 :: rest) := by
            intro uni hk hc
            rw [hv, hc] at hs
            rw [run_cons _ _ _ _ _ _ _ _ hs, hlen]
            have := (ih (pre ++ [58]) { s with mode := .encoded uni s.buf.length, last := 58 } hb').2.2 n [] [] uni s.buf []
              ⟨rfl, ⟨p, by rw [hpre]; simp, hst, by simpa using hx⟩, hk, .nil, Or.inl rfl, by simp, by simp⟩
            have e2 : [36, 123] ++ (n ++ 58 :: ([] ++ [])) ++ rest = [36, 123] ++ n ++ 58 :: rest := by simp
            rw [e2] at this
            exact this
          have hcol : colon true bytes pre.length s =
              if sameWord n [104, 101, 120] then ({ s with mode := .encoded false s.buf.length }, false)
              else if sameWord n [117, 110, 105, 99, 111, 100, 101] then ({ s with mode := .encoded true s.buf.length }, false)
              else (s, true) := by
            unfold colon
            rw [if_pos (by simp [hns]), hname]
          by_cases hk1 : sameWord n [104, 101, 120] = true
          · refine enter false (.hex (by have := hk1; simp [sameWord] at this; exact this)) ?_
            rw [hcol, if_pos hk1]
          · by_cases hk2 : sameWord n [117, 110, 105, 99, 111, 100, 101] = true
            · refine enter true (.unicode (by have := hk2; simp [sameWord] at this; exact this)) ?_
              rw [hcol, if_neg hk1, if_pos hk2]
            · refine bad s ?_ rfl hmode (name_no_encoded h.begins rest (Or.inr ⟨rfl, fun hk => ?_⟩))
              · rw [hv, hcol, if_neg hk1, if_neg hk2]
              · rcases colon_keyword.mp hk with hk | hk
                · exact hk1 hk
                · exact hk2 hk
      · refine bad s ?_ rfl hmode (name_no_encoded h.begins rest (Or.inl fun hh => ?_))
        · unfold inVariable; rw [if_neg h1, if_neg h2, if_neg h3, if_neg h4, if_neg h5]
        · rcases nameByte_cases hh with h | h | h | h <;> contradiction
    · have hs := step_encoded x true (addDecoded x) bytes pre.length s c h.mode
      obtain ⟨p, hpre, hst, hhex⟩ := h.pre
      have h36 : (36 : UInt8) ∉ k ++ 58 :: (u ++ w) := by
        intro hd
        simp only [List.mem_append, List.mem_cons] at hd
        rcases hd with hd | hd | hd | hd
        · exact absurd hd (keyword_not_mem h.keyword (by decide))
        · exact absurd hd (by decide)
        · exact absurd (numbers_bytes h.numbers _ hd) (by decide)
        · exact absurd (h.word _ hd) (by decide)
      have hword : w ≠ [] → slice bytes (p.length + 2 + k.length + 1 + u.length) pre.length = w := by
        intro _
        rw [hb, hpre]; exact slice_word
      -- plain text after all
      have bad : ∀ s' : St V F, inEncoded bytes pre.length uni b0.length s c = some (s', true) →
          s'.start = s.start → s'.items = s.items → s'.mode = s.mode → (∃ z, s'.buf = b0 ++ z) →
          NoToken EncodedChar ([36, 123] ++ (k ++ 58 :: (u ++ w)) ++ c :: rest) →
          Decodes x (BadUnicode bytes) (run x true (addDecoded x) bytes pre.length (c :: rest) s) (pieces x s.items) b0
            ([36, 123] ++ (k ++ 58 :: (u ++ w)) ++ c :: rest) := by
        intro s' hv hst' hi hm ⟨z, hz⟩ hno
        rw [hv] at hs
        rw [run_cons _ _ _ _ _ _ _ _ hs, hlen]
        have hbuf : (recover bytes pre.length s').buf = b0 ++ ([36, 123] ++ (k ++ 58 :: (u ++ w))) ++ [c] :=
          recover_encoded hb hpre (by rw [hst', hst]) (by
            rw [hm, h.mode]
            show s'.buf.take b0.length = b0
            rw [hz, List.take_left])
        have := decodes_text (x := x) (s := { recover bytes pre.length s' with last := c }) (b := b0)
          (w := [36, 123] ++ (k ++ 58 :: (u ++ w))) rfl rfl rfl hbuf (no_encoded h36 hno) (ih (pre ++ [c]) _ hb').1
        have e : pieces x ({ recover bytes pre.length s' with last := c } : St V F).items = pieces x s.items := by
          show pieces x s'.items = _
          rw [hi]
        rw [e] at this
        exact this
      by_cases h1 : isHex c = true
      · -- a digit
        have hc := (isHex_spec c).mp h1
        have hv : inEncoded bytes pre.length uni b0.length s c =
            some (if s.hex.isNone then { s with hex := some pre.length } else s, false) := by
          unfold inEncoded; rw [if_pos h1]
        rw [hv] at hs
        rw [run_cons _ _ _ _ _ _ _ _ hs, hlen]
        have hfin : ∀ s' : St V F, s'.mode = s.mode → s'.start = s.start → s'.items = s.items → s'.buf = s.buf →
            s'.hex = some (p.length + 2 + k.length + 1 + u.length) →
            Decodes x (BadUnicode bytes) (run x true (addDecoded x) bytes (pre ++ [c]).length rest s') (pieces x s.items) b0
              ([36, 123] ++ (k ++ 58 :: (u ++ w)) ++ c :: rest) := by
          intro s' hm hst' hi hbuf hx'
          have := (ih (pre ++ [c]) s' hb').2.2 k u (w ++ [c]) uni b0 b
            ⟨by rw [hm]; exact h.mode, ⟨p, by rw [hpre]; simp, by rw [hst', hst], by rw [hx', if_neg (by simp)]⟩, h.keyword,
              h.numbers, h.boundary, by
                intro d hd
                rcases List.mem_append.mp hd with hd | hd
                · exact h.word d hd
                · rw [List.mem_singleton.mp hd]; exact hc, by rw [hbuf]; exact h.buf⟩
          have e : [36, 123] ++ (k ++ 58 :: (u ++ (w ++ [c]))) ++ rest = [36, 123] ++ (k ++ 58 :: (u ++ w)) ++ c :: rest := by
            simp
          rw [e, hi] at this
          exact this
        by_cases hw : w = []
        · have hx0 : s.hex = none := by rw [hhex, if_pos hw]
          refine hfin _ ?_ ?_ ?_ ?_ ?_ <;> simp only [hx0, Option.isNone_none, if_true, Bool.false_eq_true, if_false]
          rw [hpre, hw]; simp; omega
        · have hx0 : s.hex = some (p.length + 2 + k.length + 1 + u.length) := by rw [hhex, if_neg hw]
          refine hfin _ ?_ ?_ ?_ ?_ ?_ <;> simp [hx0]
      by_cases h2 : isBlank c = true ∨ c = 125
      · have hv : inEncoded bytes pre.length uni b0.length s c = (endWord bytes pre.length uni s).bind fun r =>
            if c = 125 then
              if r.1.buf.length ≠ b0.length then some ({ r.1 with mode := .text }, r.2) else some (r.1, true)
            else some (r.1, r.2) := by
          unfold inEncoded
          rw [if_neg h1, if_pos (by simpa using h2)]
          rfl
        have hnotblank : c = 125 → c ∉ ([32, 9, 13, 10] : Bytes) := by rintro rfl; decide
        -- numbers up to here
        have good : ∀ (s' : St V F) (z : Bytes), endWord bytes pre.length uni s = some (s', false) →
            s'.hex = none → s'.buf = b0 ++ z → s'.start = s.start → s'.items = s.items → s'.mode = s.mode →
            Numbers (codeOf uni) (u ++ w) z → (z = [] → w = []) → (w = [] → z = b) →
            Decodes x (BadUnicode bytes) (run x true (addDecoded x) bytes pre.length (c :: rest) s) (pieces x s.items) b0
              ([36, 123] ++ (k ++ 58 :: (u ++ w)) ++ c :: rest) := by
          intro s' z he hx' hz hst' hi hm hN hzw hwz
          rw [he] at hv
          by_cases hc : c = 125
          · subst hc
            by_cases hlenz : s'.buf.length ≠ b0.length
            · have hv' : inEncoded bytes pre.length uni b0.length s 125 = some ({ s' with mode := .text }, false) := by
                rw [hv]
                rw [Option.bind_some]
                rw [if_pos rfl, if_pos hlenz]
              rw [hv'] at hs
              rw [run_cons _ _ _ _ _ _ _ _ hs, hlen]
              have hz0 : z ≠ [] := by
                intro e
                exact hlenz (by rw [hz, e]; simp)
              have e : [36, 123] ++ (k ++ 58 :: (u ++ w)) ++ 125 :: rest = ([36, 123] ++ k ++ 58 :: (u ++ w) ++ [125]) ++ rest := by
                simp
              rw [e]
              refine decodes_token (p := z) ⟨k, codeOf uni, u ++ w, z, h.keyword, hN, hz0, rfl, rfl⟩ ?_
              refine (ih (pre ++ [125]) _ hb').1 _ _ [] ⟨rfl, hx', ?_, Or.inr ⟨by show (125 : UInt8) ≠ 36; decide, rfl, ?_⟩⟩
              · show _ = pieces x s'.items
                rw [hi]
              · show _ = s'.buf
                rw [hz]
            · have hz0 : z = [] := by
                have : s'.buf.length = b0.length := by simpa using hlenz
                rw [hz] at this
                simpa using this
              have hv' : inEncoded bytes pre.length uni b0.length s 125 = some (s', true) := by
                rw [hv]
                rw [Option.bind_some]
                rw [if_pos rfl, if_neg hlenz]
              have hw0 := hzw hz0
              exact bad s' hv' hst' hi hm ⟨z, hz⟩ (bad_encoded h.keyword h.numbers h.boundary h.word rest
                (Or.inr (Or.inl ⟨rfl, by rw [← hwz hw0, hz0], hw0⟩)))
          · have hblank : c ∈ ([32, 9, 13, 10] : Bytes) := by
              rcases h2 with h2 | h2
              · exact (isBlank_spec c).mp h2
              · exact absurd h2 hc
            have hv' : inEncoded bytes pre.length uni b0.length s c = some (s', false) := by
              rw [hv]
              rw [Option.bind_some]
              rw [if_neg hc]
            rw [hv'] at hs
            rw [run_cons _ _ _ _ _ _ _ _ hs, hlen]
            have hN' : Numbers (codeOf uni) (u ++ w ++ [c]) z := by
              by_cases hw : w = []
              · subst hw
                rw [List.append_nil] at hN ⊢
                have := numbers_append h.numbers h.boundary (.blank hblank .nil)
                rw [List.append_nil] at this
                rw [numbers_unique hN h.numbers]
                exact this
              · obtain ⟨b2, hN2, hzb⟩ := numbers_drop h.numbers h.boundary hN
                obtain ⟨a, b3, hcode, hN3, hb2⟩ := numbers_word (v := []) hw h.word (by simp) (by simpa using hN2)
                have hb3 : b3 = [] := numbers_unique hN3 .nil
                have := numbers_append h.numbers h.boundary
                  (.number (rest := [c]) hw h.word (by intro d r e; rw [← (List.cons.inj e).1]; exact hblank) hcode (.blank hblank .nil))
                rw [hzb, hb2, hb3, List.append_assoc]
                exact this
            have := (ih (pre ++ [c]) { s' with last := c } hb').2.2 k (u ++ w ++ [c]) [] uni b0 z
              ⟨by show s'.mode = _; rw [hm]; exact h.mode, ⟨p, by rw [hpre]; simp, by show s'.start = _; rw [hst', hst], by simpa using hx'⟩,
                h.keyword, hN', Or.inr ⟨_, _, rfl, hblank⟩, by simp, hz⟩
            have e : [36, 123] ++ (k ++ 58 :: (u ++ w ++ [c] ++ [])) ++ rest = [36, 123] ++ (k ++ 58 :: (u ++ w)) ++ c :: rest := by
              simp
            rw [e] at this
            have e2 : pieces x ({ s' with last := c } : St V F).items = pieces x s.items := by
              show pieces x s'.items = _
              rw [hi]
            rw [e2] at this
            exact this
        by_cases hw : w = []
        · have hx0 : s.hex = none := by rw [hhex, if_pos hw]
          have he : endWord bytes pre.length uni s = some (s, false) := by
            unfold endWord; rw [hx0]
          exact good s b he hx0 h.buf rfl rfl rfl (by rw [hw, List.append_nil]; exact h.numbers) (fun _ => hw) (fun _ => rfl)
        · have hx0 : s.hex = some (p.length + 2 + k.length + 1 + u.length) := by rw [hhex, if_neg hw]
          have he : endWord bytes pre.length uni s = match decodeWord uni w with
              | none => none
              | some none => some ({ s with hex := none }, true)
              | some (some b) => some ({ s with hex := none, buf := s.buf ++ b }, false) := by
            unfold endWord
            rw [hx0]
            show (match decodeWord uni (slice bytes (p.length + 2 + k.length + 1 + u.length) pre.length) with
              | none => none
              | some none => some ({ s with hex := none }, true)
              | some (some b) => some ({ s with hex := none, buf := s.buf ++ b }, false)) = _
            rw [hword hw]
          cases hdw : decodeWord uni w with
          | none =>
            rw [hdw] at he
            rw [hv, he] at hs
            rw [run_fail _ _ _ _ _ _ _ _ hs]
            obtain ⟨rfl, hcode⟩ := decodeWord_error h.word hdw
            refine ⟨fun items hr => (by cases hr), fun _ => Or.inl ⟨p, k, u, b, w, c, rest, by rw [hb, hpre]; simp, h.keyword,
              h.numbers, h.boundary, hw, h.word, ?_, hcode⟩⟩
            rcases h2 with h2 | rfl
            · have := (isBlank_spec c).mp h2
              simp only [List.mem_cons, List.not_mem_nil, or_false] at this ⊢
              tauto
            · decide
          | some o =>
            cases o with
            | none =>
              have hcode := decodeWord_none h.word hdw
              rw [hdw] at he
              rw [he] at hv
              by_cases hc : c = 125
              · subst hc
                by_cases hb0 : b = []
                · have hlenz : ¬ (({ s with hex := none } : St V F).buf.length ≠ b0.length) := by
                    show ¬ (s.buf.length ≠ b0.length)
                    rw [h.buf, hb0]; simp
                  have hv' : inEncoded bytes pre.length uni b0.length s 125 = some ({ s with hex := none }, true) := by
                    rw [hv]
                    rw [Option.bind_some]
                    rw [if_pos rfl, if_neg hlenz]
                  exact bad _ hv' rfl rfl rfl ⟨b, h.buf⟩ (bad_encoded h.keyword h.numbers h.boundary h.word rest
                    (Or.inr (Or.inr (Or.inr ⟨rfl, hw, hcode⟩))))
                · exact absurd ⟨p, k, codeOf uni, u, b, w, rest, by rw [hb, hpre]; simp, h.keyword, h.numbers, hb0,
                    h.boundary.resolve_left (by
                      intro e
                      have hN := h.numbers
                      rw [e] at hN
                      exact hb0 (numbers_unique hN .nil)), hw, h.word, hcode⟩ hsp
              · have hblank : c ∈ ([32, 9, 13, 10] : Bytes) := by
                  rcases h2 with h2 | h2
                  · exact (isBlank_spec c).mp h2
                  · exact absurd h2 hc
                have hv' : inEncoded bytes pre.length uni b0.length s c = some ({ s with hex := none }, true) := by
                  rw [hv]
                  rw [Option.bind_some]
                  rw [if_neg hc]
                exact bad _ hv' rfl rfl rfl ⟨b, h.buf⟩ (bad_encoded h.keyword h.numbers h.boundary h.word rest
                  (Or.inr (Or.inr (Or.inl ⟨hblank, hw, hcode⟩))))
            | some a =>
              have hcode := decodeWord_some h.word hdw
              rw [hdw] at he
              refine good { s with hex := none, buf := s.buf ++ a } (b ++ a) he rfl ?_ rfl rfl rfl ?_ ?_ (fun e => absurd e hw)
              · show s.buf ++ a = _
                rw [h.buf]; simp
              · have := numbers_append h.numbers h.boundary
                  (.number (rest := []) hw h.word (by simp) hcode .nil)
                simpa using this
              · intro e
                exact absurd (List.append_eq_nil_iff.mp e).2 (code_nonempty hcode)
      · have h3 : c ∉ ([32, 9, 13, 10] : Bytes) := fun hh => h2 (Or.inl ((isBlank_spec c).mpr hh))
        have h4 : c ≠ 125 := fun hh => h2 (Or.inr hh)
        have h5 : ¬ HexByte c := fun hh => h1 ((isHex_spec c).mpr hh)
        refine bad s ?_ rfl rfl rfl ⟨b, h.buf⟩ (bad_encoded h.keyword h.numbers h.boundary h.word rest (Or.inl ⟨h5, h3, h4⟩))
        unfold inEncoded
        rw [if_neg h1, if_neg (by simpa using h2)]

end Run

end Sieve.Str
