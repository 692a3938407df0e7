import Verif.StringLemmas

/-!
# Strings: the loop without encoded characters
-/

namespace Sieve.Str

variable {V F : Type}

/-- The result `r` is the expansion of `t` after the pieces `done`. -/
def Meets (x : Ext V F) (r : Option (List (Item V F))) (done : List (Piece V)) (t : Bytes) : Prop :=
  match r with
  | some items => ∃ sg, Expanded x t sg ∧ pieces x items = done ++ sg
  | none => ∀ sg, ¬ Expanded x t sg

theorem meets_chunk {x : Ext V F} {r : Option (List (Item V F))} {done : List (Piece V)} (w : Bytes) {t : Bytes}
    (h : ∀ a c b, w = a ++ c :: b → NoToken (Reference x) (c :: b ++ t)) (hm : Meets x r (done ++ w.map .byte) t) :
    Meets x r done (w ++ t) := by
  cases r with
  | none =>
    intro sg hsg
    obtain ⟨q, -, hq⟩ := (chunk_iff w h sg).mp hsg
    exact hm q hq
  | some items =>
    obtain ⟨sg, hsg, hp⟩ := hm
    exact ⟨w.map .byte ++ sg, (chunk_iff w h _).mpr ⟨sg, rfl, hsg⟩, by rw [hp, List.append_assoc]⟩

theorem meets_byte {x : Ext V F} {r : Option (List (Item V F))} {done : List (Piece V)} {c : UInt8} {t : Bytes}
    (h : NoToken (Reference x) (c :: t)) (hm : Meets x r (done ++ [.byte c]) t) : Meets x r done (c :: t) :=
  meets_chunk [c] (fun a c' b e => by
    cases a with
    | nil => cases e; exact h
    | cons y a => simp at e) hm

theorem meets_token {x : Ext V F} {r : Option (List (Item V F))} {done : List (Piece V)} {w : Bytes} {p : List (Piece V)}
    {t : Bytes} (h : Reference x w (some p)) (hm : Meets x r (done ++ p) t) : Meets x r done (w ++ t) := by
  cases r with
  | none =>
    intro sg hsg
    obtain ⟨_, q, _, -, hq⟩ := (token_iff (reference_prefixFree x) h sg).mp hsg
    exact hm q hq
  | some items =>
    obtain ⟨sg, hsg, hp⟩ := hm
    exact ⟨p ++ sg, .token h hsg, by rw [hp, List.append_assoc]⟩

theorem meets_fail {x : Ext V F} {done : List (Piece V)} {w : Bytes} {t : Bytes} (h : Reference x w none) :
    Meets x none done (w ++ t) := by
  intro sg hsg
  obtain ⟨_, q, e, -, hq⟩ := (token_iff (reference_prefixFree x) h sg).mp hsg
  cases e

theorem pieces_append (x : Ext V F) (a b : List (Item V F)) : pieces x (a ++ b) = pieces x a ++ pieces x b := by
  simp [pieces]

theorem addPlain_pieces (x : Ext V F) (items : List (Item V F)) (buf : Bytes) (d e : Bool) :
    ∃ r, addPlain x items buf d e = some r ∧ pieces x r = pieces x items ++ buf.map .byte := by
  refine ⟨_, rfl, ?_⟩
  rw [pieces_append]
  congr 1
  simp only [pieces, List.flatMap_cons, List.flatMap_nil, List.append_nil]
  split_ifs
  · split
    · split_ifs with h
      · simp only [Item.pieces, h]
      · rfl
    · rfl
  · split
    · split_ifs with h
      · simp only [Item.pieces, h]
      · rfl
    · rfl
  · rfl

theorem flush_pieces (x : Ext V F) (s : St V F) :
    ∃ s', flush (addPlain x) s = some s' ∧ pieces x s'.items = pieces x s.items ++ s.buf.map .byte ∧ s'.buf = [] ∧
      s'.start = s.start ∧ s'.isNum = s.isNum ∧ s'.hasNs = s.hasNs ∧ s'.hex = s.hex ∧ s'.mode = s.mode := by
  unfold flush
  by_cases h : s.buf = []
  · rw [if_pos h]
    exact ⟨s, rfl, by simp [h], h, rfl, rfl, rfl, rfl, rfl⟩
  · rw [if_neg h]
    obtain ⟨r, hr, hp⟩ := addPlain_pieces x s.items s.buf s.digits s.dots
    rw [hr]
    exact ⟨_, rfl, hp, rfl, rfl, rfl, rfl, rfl, rfl⟩

/-- The flags of the loop agree with the name read so far. -/
structure Reads (pre : Bytes) (s : St V F) (n : Bytes) : Prop where
  mode : s.mode = .name
  pre : ∃ p, pre = p ++ [36, 123] ++ n ∧ s.start = p.length + 2
  begins : Begins n
  num : s.isNum = true ↔ ∀ c ∈ n, 48 ≤ c ∧ c ≤ 57
  ns : s.hasNs = true ↔ 46 ∈ n

theorem resolve_eq {x : Ext V F} {pre : Bytes} {s : St V F} {n : Bytes} (h : Reads pre s n) :
    (if s.isNum then x.numbered n else x.named s.hasNs n) = x.resolve n := by
  unfold Ext.resolve
  by_cases h1 : s.isNum = true
  · rw [if_pos h1, if_pos (h.num.mp h1)]
  · rw [if_neg h1, if_neg (fun hh => h1 (h.num.mpr hh))]
    by_cases h2 : s.hasNs = true
    · rw [if_pos (h.ns.mp h2), h2]
    · rw [if_neg (fun hh => h2 (h.ns.mpr hh)), Bool.eq_false_iff.mpr h2]

theorem slice_name {p : Bytes} {n rest : Bytes} {start : Nat} (h : start = p.length + 2) :
    slice (p ++ [36, 123] ++ n ++ rest) start (p ++ [36, 123] ++ n).length = n := by
  unfold slice
  rw [List.take_left, h]
  have : p.length + 2 = (p ++ [36, 123]).length := by simp
  rw [this, List.drop_left]

theorem slice_from {p : Bytes} {n rest : Bytes} {c : UInt8} {start : Nat} (h : start = p.length + 2) :
    slice (p ++ [36, 123] ++ n ++ c :: rest) (start - 2) ((p ++ [36, 123] ++ n).length + 1) = [36, 123] ++ n ++ [c] := by
  unfold slice
  have e : p ++ [36, 123] ++ n ++ c :: rest = (p ++ [36, 123] ++ n ++ [c]) ++ rest := by simp
  have e2 : (p ++ [36, 123] ++ n).length + 1 = (p ++ [36, 123] ++ n ++ [c]).length := by simp; omega
  rw [e, e2, List.take_left, h]
  have : p.length + 2 - 2 = p.length := by omega
  rw [this]
  simp

theorem slice_end {p : Bytes} {n : Bytes} {start : Nat} (h : start = p.length + 2) :
    slice (p ++ [36, 123] ++ n) (start - 2) (p ++ [36, 123] ++ n).length = [36, 123] ++ n := by
  unfold slice
  rw [List.take_length, h]
  have : p.length + 2 - 2 = p.length := by omega
  rw [this]
  simp

/-- The loop in text: `held` is a dollar sign already in the buffer which may begin a reference. -/
structure InText (x : Ext V F) (pre : Bytes) (s : St V F) (done : List (Piece V)) (held : Bytes) : Prop where
  mode : s.mode = .text
  held : s.last = 36 ∧ held = [36] ∧ (∃ p, pre = p ++ [36]) ∧
      (∃ b, s.buf = b ++ [36] ∧ done = pieces x s.items ++ b.map .byte) ∨
    s.last ≠ 36 ∧ held = [] ∧ done = pieces x s.items ++ s.buf.map .byte

/-- After a byte of text. -/
theorem inText_after (x : Ext V F) (pre : Bytes) (s : St V F) (c : UInt8) (b : Bytes) (hm : s.mode = .text)
    (hl : s.last = c) (hb : s.buf = b ++ [c]) :
    ∃ held w, InText x (pre ++ [c]) s (pieces x s.items ++ b.map .byte ++ w.map .byte) held ∧ [c] = w ++ held ∧
      (c = 36 → w = []) := by
  by_cases h : c = 36
  · subst h
    refine ⟨[36], [], ⟨hm, Or.inl ⟨hl, rfl, ⟨pre, rfl⟩, b, hb, by simp⟩⟩, rfl, fun _ => rfl⟩
  · refine ⟨[], [c], ⟨hm, Or.inr ⟨by rw [hl]; exact h, rfl, ?_⟩⟩, rfl, fun e => absurd e h⟩
    rw [hb]; simp

/-- Reading text `w` with last byte `c`, which begins no reference. -/
theorem meets_text {x : Ext V F} {r : Option (List (Item V F))} {pre : Bytes} {s : St V F} {c : UInt8} {b w : Bytes}
    {t : Bytes} {done : List (Piece V)} (hm : s.mode = .text) (hl : s.last = c) (hb : s.buf = b ++ w ++ [c])
    (hd : done = pieces x s.items ++ b.map .byte)
    (hw : ∀ a d e, w = a ++ d :: e → NoToken (Reference x) (d :: e ++ c :: t))
    (ih : ∀ done held, InText x (pre ++ [c]) s done held → Meets x r done (held ++ t)) :
    Meets x r done (w ++ c :: t) := by
  obtain ⟨held, v, hi, he, h36⟩ := inText_after x pre s c (b ++ w) hm hl hb
  have h1 := ih _ _ hi
  refine meets_chunk w hw ?_
  have h2 : pieces x s.items ++ (b ++ w).map Piece.byte = done ++ w.map .byte := by rw [hd]; simp
  rw [h2] at h1
  cases v with
  | nil =>
    have : held = [c] := by simpa using he.symm
    subst this
    simpa using h1
  | cons y v =>
    have hcv : c ≠ 36 := fun e => by simpa using h36 e
    have : v = [] ∧ held = [] ∧ y = c := by
      simp only [List.cons_append, List.cons.injEq] at he
      have := List.append_eq_nil_iff.mp he.2.symm
      exact ⟨this.1, this.2, he.1.symm⟩
    obtain ⟨rfl, rfl, rfl⟩ := this
    exact meets_byte (reference_dollar hcv t) (by simpa using h1)

section Run
variable [DecidableEq V] [DecidableEq F]

/-- The rest of the loop and what comes after it. -/
def run (x : Ext V F) (decoded : Bool) (add : List (Item V F) → Bytes → Bool → Bool → Option (List (Item V F)))
    (bytes : Bytes) (pos : Nat) (rest : Bytes) (s : St V F) : Option (List (Item V F)) :=
  (loop x decoded add bytes pos rest s).bind (finish add bytes)

theorem run_cons (x : Ext V F) (decoded : Bool) (add) (bytes : Bytes) (pos : Nat) (c : UInt8) (rest : Bytes)
    (s : St V F) {s' : St V F} (h : step x decoded add bytes pos s c = some s') :
    run x decoded add bytes pos (c :: rest) s = run x decoded add bytes (pos + 1) rest s' := by
  simp [run, loop, h]

theorem run_fail (x : Ext V F) (decoded : Bool) (add) (bytes : Bytes) (pos : Nat) (c : UInt8) (rest : Bytes)
    (s : St V F) (h : step x decoded add bytes pos s c = none) :
    run x decoded add bytes pos (c :: rest) s = none := by
  simp [run, loop, h]

theorem finish_plain (x : Ext V F) (bytes : Bytes) (s : St V F) {t : Bytes}
    (h : (match s.mode with
      | .text => s.buf
      | .name => s.buf ++ slice bytes (s.start - 2) bytes.length
      | .encoded _ init => s.buf.take init ++ slice bytes (s.start - 2) bytes.length) = t) :
    ∃ r, finish (addPlain x) bytes s = some r ∧ pieces x r = pieces x s.items ++ t.map .byte := by
  have key : ∀ s' : St V F, s'.buf = t → s'.items = s.items →
      ∃ r, (do
        let items ← if s'.buf = [] then some s'.items else addPlain x s'.items s'.buf s'.digits s'.dots
        return if items = [] then [Item.text []] else items) = some r ∧ pieces x r = pieces x s.items ++ t.map .byte := by
    intro s' hb hi
    by_cases h0 : s'.buf = []
    · rw [if_pos h0]
      refine ⟨_, rfl, ?_⟩
      rw [hi, ← hb, h0]
      by_cases h1 : s.items = []
      · rw [if_pos h1, h1]; rfl
      · rw [if_neg h1]; simp
    · rw [if_neg h0]
      obtain ⟨r, hr, hp⟩ := addPlain_pieces x s'.items s'.buf s'.digits s'.dots
      rw [hr]
      refine ⟨_, rfl, ?_⟩
      rw [hi, hb] at hp
      by_cases h1 : r = []
      · rw [if_pos h1]
        rw [h1] at hp
        simpa [pieces, Item.pieces] using hp
      · rw [if_neg h1]; exact hp
  unfold finish
  revert h
  cases hm : s.mode with
  | text => intro h; exact key s h rfl
  | name => intro h; exact key { s with buf := s.buf ++ slice bytes (s.start - 2) bytes.length } h rfl
  | encoded u init => intro h; exact key { s with buf := s.buf.take init ++ slice bytes (s.start - 2) bytes.length } h rfl

theorem step_text (x : Ext V F) (decoded : Bool) (add) (bytes : Bytes) (pos : Nat) (s : St V F) (c : UInt8)
    (hm : s.mode = .text) : step x decoded add bytes pos s c = some { inText pos s c with last := c } := by
  simp [step, hm]

theorem step_variable (x : Ext V F) (decoded : Bool) (add) (bytes : Bytes) (pos : Nat) (s : St V F) (c : UInt8)
    (hm : s.mode = .name) : step x decoded add bytes pos s c =
      (inVariable x decoded add bytes pos s c).map fun r =>
        { (if r.2 then recover bytes pos r.1 else r.1) with last := c } := by
  simp only [step, hm]
  cases inVariable x decoded add bytes pos s c with
  | none => rfl
  | some r => rfl

/-- A byte in text that opens no reference goes to the buffer. -/
theorem inText_push (pos : Nat) (s : St V F) (c : UInt8) (hm : s.mode = .text) (h : ¬ (c = 123 ∧ s.last = 36)) :
    (inText pos s c).mode = .text ∧ (inText pos s c).buf = s.buf ++ [c] ∧ (inText pos s c).items = s.items := by
  unfold inText
  rw [if_neg h]
  split_ifs <;> exact ⟨hm, rfl, rfl⟩

theorem nameByte_cases {c : UInt8} (h : NameByte c) : isNameChar c = true ∨ c = 46 ∨ isDigit c = true ∨ c = 58 := by
  unfold NameByte at h
  simp only [List.mem_cons, List.not_mem_nil, or_false] at h
  simp only [isNameChar, isDigit, Bool.or_eq_true, Bool.and_eq_true, decide_eq_true_eq]
  tauto

theorem isNameChar_spec {c : UInt8} (h : isNameChar c = true) :
    NameByte c ∧ c ≠ 46 ∧ c ≠ 58 ∧ ¬ (48 ≤ c ∧ c ≤ 57) := by
  have key : ∀ n : Fin 256, isNameChar (.ofFin n) = true → NameByte (.ofFin n) ∧ UInt8.ofFin n ≠ 46 ∧ UInt8.ofFin n ≠ 58 ∧
      ¬ (48 ≤ UInt8.ofFin n ∧ UInt8.ofFin n ≤ 57) := by decide +kernel
  exact key c.toFin h

theorem isDigit_spec {c : UInt8} : isDigit c = true ↔ 48 ≤ c ∧ c ≤ 57 := by
  simp [isDigit]

/-- Reading one more byte of a name. -/
theorem reads_snoc {pre : Bytes} {s : St V F} {n : Bytes} (h : Reads pre s n) (c : UInt8) (s' : St V F)
    (hc : NameByte c) (h58 : c = 58 → 46 ∈ n) (hm : s'.mode = .name) (hs : s'.start = s.start)
    (hn : s'.isNum = true ↔ s.isNum = true ∧ (48 ≤ c ∧ c ≤ 57)) (hns : s'.hasNs = true ↔ s.hasNs = true ∨ c = 46) :
    Reads (pre ++ [c]) s' (n ++ [c]) := by
  obtain ⟨p, hp, hst⟩ := h.pre
  refine ⟨hm, ⟨p, by rw [hp]; simp, by rw [hs]; exact hst⟩, h.begins.snoc hc h58, ?_, ?_⟩
  · rw [hn, h.num]; simp [or_imp, forall_and]; tauto
  · rw [hns, h.ns]; simp [eq_comm]

/-- What a closing brace or a byte that is not part of a name does. -/
theorem plain_loop (x : Ext V F) (bytes : Bytes) : ∀ (rest pre : Bytes) (s : St V F), bytes = pre ++ rest →
    (∀ done held, InText x pre s done held →
      Meets x (run x false (addPlain x) bytes pre.length rest s) done (held ++ rest)) ∧
    (∀ n, Reads pre s n → Meets x (run x false (addPlain x) bytes pre.length rest s)
      (pieces x s.items ++ s.buf.map .byte) ([36, 123] ++ n ++ rest)) := by
  intro rest
  induction rest with
  | nil =>
    intro pre s hb
    rw [List.append_nil] at hb
    subst hb
    refine ⟨fun done held h => ?_, fun n h => ?_⟩
    · obtain ⟨r, hr, hp⟩ := finish_plain x bytes s (t := s.buf) (by rw [h.mode])
      have hrun : run x false (addPlain x) bytes bytes.length [] s = some r := hr
      rw [hrun]
      rcases h.held with ⟨_, rfl, _, b, hbuf, rfl⟩ | ⟨_, rfl, rfl⟩
      · refine ⟨[.byte 36], .keep reference_end .nil, ?_⟩
        rw [hp, hbuf]; simp
      · exact ⟨[], .nil, by simp [hp]⟩
    · obtain ⟨p, hpre, hst⟩ := h.pre
      obtain ⟨r, hr, hp⟩ := finish_plain x bytes s (t := s.buf ++ ([36, 123] ++ n)) (by
        rw [h.mode]
        show s.buf ++ slice bytes (s.start - 2) bytes.length = _
        rw [hpre, slice_end hst])
      have hrun : run x false (addPlain x) bytes bytes.length [] s = some r := hr
      rw [hrun]
      refine meets_chunk (r := some r) _ (no_reference h.begins.chars ?_) ⟨[], .nil, ?_⟩
      · rw [List.append_nil]; exact open_reference h.begins
      · rw [hp]; simp
  | cons c rest ih =>
    intro pre s hb
    have hb' : bytes = (pre ++ [c]) ++ rest := by rw [hb]; simp
    have hlen : pre.length + 1 = (pre ++ [c]).length := by simp
    refine ⟨fun done held h => ?_, fun n h => ?_⟩
    · have hs := step_text x false (addPlain x) bytes pre.length s c h.mode
      rw [run_cons _ _ _ _ _ _ _ _ hs, hlen]
      obtain ⟨ih1, ih2⟩ := ih (pre ++ [c]) { inText pre.length s c with last := c } hb'
      by_cases hc : c = 123 ∧ s.last = 36
      · rcases h.held with ⟨_, rfl, ⟨p, hp⟩, b, hbuf, rfl⟩ | ⟨h36, _⟩
        · obtain ⟨rfl, hl⟩ := hc
          have e : inText pre.length s 123 = { s with buf := s.buf.dropLast, start := pre.length + 1, isNum := true, hasNs := false, mode := .name } := by
            unfold inText; rw [if_pos ⟨rfl, hl⟩]
          have := ih2 [] ⟨by rw [e], ⟨p, by rw [hp]; simp, by rw [e, hp]; simp⟩, .nil, by rw [e]; simp, by rw [e]; simp⟩
          rw [e] at this
          rw [e]
          have hd : s.buf.dropLast = b := by rw [hbuf]; simp
          rw [hd] at this ⊢
          simpa using this
        · exact absurd hc.2 h36
      · obtain ⟨e1, e2, e3⟩ := inText_push pre.length s c h.mode hc
        rcases h.held with ⟨hl, rfl, ⟨p, hp⟩, b, hbuf, rfl⟩ | ⟨h36, rfl, rfl⟩
        · have hc' : c ≠ 123 := fun e => hc ⟨e, hl⟩
          refine meets_text (s := { inText pre.length s c with last := c }) (b := b) (w := [36]) e1 rfl ?_ ?_ ?_ ih1
          · show (inText pre.length s c).buf = _
            rw [e2, hbuf]
          · show _ = pieces x (inText pre.length s c).items ++ _
            rw [e3]
          · intro a d e he
            cases a with
            | nil => cases he; exact reference_brace hc' rest
            | cons y a => simp at he
        · refine meets_text (s := { inText pre.length s c with last := c }) (b := s.buf) (w := []) e1 rfl ?_ ?_ ?_ ih1
          · show (inText pre.length s c).buf = _
            rw [e2]; simp
          · show _ = pieces x (inText pre.length s c).items ++ _
            rw [e3]
          · intro a d e he; simp at he
    · have hs := step_variable x false (addPlain x) bytes pre.length s c h.mode
      obtain ⟨p, hpre, hst⟩ := h.pre
      -- a byte of the name
      have more : ∀ s' : St V F, inVariable x false (addPlain x) bytes pre.length s c = some (s', false) →
          NameByte c → (c = 58 → 46 ∈ n) → s'.mode = .name → s'.start = s.start →
          (s'.isNum = true ↔ s.isNum = true ∧ (48 ≤ c ∧ c ≤ 57)) → (s'.hasNs = true ↔ s.hasNs = true ∨ c = 46) →
          s'.items = s.items → s'.buf = s.buf →
          Meets x (run x false (addPlain x) bytes pre.length (c :: rest) s) (pieces x s.items ++ s.buf.map .byte)
            ([36, 123] ++ n ++ c :: rest) := by
        intro s' hv hc h58 hm hst' hn hns hi hbuf
        rw [hv] at hs
        rw [run_cons _ _ _ _ _ _ _ _ hs, hlen]
        have := (ih (pre ++ [c]) { s' with last := c } hb').2 (n ++ [c])
          (reads_snoc (s' := { s' with last := c }) h c hc h58 hm hst' hn hns)
        have e : pieces x s'.items ++ s'.buf.map Piece.byte = pieces x s.items ++ s.buf.map .byte := by rw [hi, hbuf]
        have e2 : [36, 123] ++ (n ++ [c]) ++ rest = [36, 123] ++ n ++ c :: rest := by simp
        rw [e2] at this
        rw [← e]
        exact this
      -- plain text after all
      have bad : ∀ s' : St V F, inVariable x false (addPlain x) bytes pre.length s c = some (s', true) →
          s'.start = s.start → s'.mode ≠ .encoded true 0 → (∀ u i, s'.mode ≠ .encoded u i) →
          pieces x s'.items ++ s'.buf.map Piece.byte = pieces x s.items ++ s.buf.map .byte →
          NoToken (Reference x) ([36, 123] ++ n ++ c :: rest) →
          Meets x (run x false (addPlain x) bytes pre.length (c :: rest) s) (pieces x s.items ++ s.buf.map .byte)
            ([36, 123] ++ n ++ c :: rest) := by
        intro s' hv hst' _ hm hd hno
        rw [hv] at hs
        rw [run_cons _ _ _ _ _ _ _ _ hs, hlen]
        have hbuf : (recover bytes pre.length s').buf = s'.buf ++ ([36, 123] ++ n) ++ [c] := by
          have e1 : slice bytes (s'.start - 2) (pre.length + 1) = [36, 123] ++ n ++ [c] := by
            rw [hb, hpre, hst']; exact slice_from hst
          have e2 : (recover bytes pre.length s').buf = s'.buf ++ slice bytes (s'.start - 2) (pre.length + 1) := by
            unfold recover
            cases hmm : s'.mode with
            | encoded u i => exact absurd hmm (hm u i)
            | text => rfl
            | name => rfl
          rw [e2, e1]; simp
        exact meets_text (s := { recover bytes pre.length s' with last := c }) (b := s'.buf) (w := [36, 123] ++ n) rfl rfl
          hbuf hd.symm (no_reference h.begins.chars hno) (ih (pre ++ [c]) _ hb').1
      by_cases h1 : isNameChar c = true
      · obtain ⟨hc, h46, h58, hd⟩ := isNameChar_spec h1
        refine more { s with isNum := false } (by unfold inVariable; rw [if_pos h1]) hc (fun e => absurd e h58) h.mode rfl
          ?_ ?_ rfl rfl
        · simp [hd]
        · simp [h46]
      by_cases h2 : c = 46
      · subst h2
        exact more { s with isNum := false, hasNs := true } rfl (by decide) (fun e => absurd e (by decide)) h.mode rfl (by simp) (by simp) rfl rfl
      by_cases h3 : isDigit c = true
      · have hd := isDigit_spec.mp h3
        refine more s (by unfold inVariable; rw [if_neg h1, if_neg h2, if_pos h3]) (Or.inr (Or.inr (Or.inl hd))) ?_ h.mode rfl
          ?_ ?_ rfl rfl
        · rintro rfl; exact absurd hd (by decide)
        · simp [hd]
        · simp [h2]
      by_cases h4 : c = 125
      · subst h4
        have hv : inVariable x false (addPlain x) bytes pre.length s 125 = endVariable x (addPlain x) bytes pre.length s := by
          unfold inVariable; rw [if_neg h1, if_neg h2, if_neg h3, if_pos rfl]
        have hlt : s.start < pre.length ↔ n ≠ [] := by
          rw [hst, hpre, ← List.length_pos_iff]; simp
        by_cases hn : n = []
        · refine bad s ?_ rfl (by rw [h.mode]; simp) (by rw [h.mode]; simp) rfl (bad_reference h.begins rest (Or.inr (Or.inl ⟨rfl, hn⟩)))
          rw [hv]; unfold endVariable; rw [if_neg (fun hh => hlt.mp hh hn)]
        · obtain ⟨s1, hf, hp1, hb1, hs1, hn1, hns1, hx1, hm1⟩ := flush_pieces x s
          have hname : slice bytes s1.start pre.length = n := by
            rw [hs1, hb, hpre]; exact slice_name hst
          have hr : (if s1.isNum then x.numbered n else x.named s1.hasNs n) = x.resolve n := by
            rw [hn1, hns1]; exact resolve_eq h
          have hev : endVariable x (addPlain x) bytes pre.length s = match x.resolve n with
              | .var v => some ({ s1 with items := s1.items ++ [.var v], mode := .text }, false)
              | .none => some ({ s1 with mode := .text }, false)
              | .invalid => some ({ s1 with mode := .text }, true)
              | .fail => none := by
            unfold endVariable
            rw [if_pos (hlt.mpr hn), hf]
            show (match if s1.isNum then x.numbered (slice bytes s1.start pre.length)
              else x.named s1.hasNs (slice bytes s1.start pre.length) with
              | Look.var v => some ({ s1 with items := s1.items ++ [Item.var v], mode := Mode.text }, false)
              | .none => some ({ s1 with mode := .text }, false)
              | .invalid => some ({ s1 with mode := .text }, true)
              | .fail => none) = _
            rw [hname, hr]
          have hnm := h.begins.name hn
          have hw : [36, 123] ++ n ++ 125 :: rest = ([36, 123] ++ n ++ [125]) ++ rest := by simp
          cases hres : x.resolve n with
          | var v =>
            rw [hres] at hev
            rw [hv, hev] at hs
            rw [run_cons _ _ _ _ _ _ _ _ hs, hlen, hw]
            refine meets_token (p := [.value v]) ⟨n, hnm, rfl, by rw [hres]⟩ ?_
            refine (ih (pre ++ [125]) _ hb').1 _ [] ⟨rfl, Or.inr ⟨by show (125 : UInt8) ≠ 36; decide, rfl, ?_⟩⟩
            show _ = pieces x (s1.items ++ [.var v]) ++ s1.buf.map Piece.byte
            rw [pieces_append, hp1, hb1]; simp [pieces, Item.pieces]
          | none =>
            rw [hres] at hev
            rw [hv, hev] at hs
            rw [run_cons _ _ _ _ _ _ _ _ hs, hlen, hw]
            refine meets_token (p := []) ⟨n, hnm, rfl, by rw [hres]⟩ ?_
            refine (ih (pre ++ [125]) _ hb').1 _ [] ⟨rfl, Or.inr ⟨by show (125 : UInt8) ≠ 36; decide, rfl, ?_⟩⟩
            show _ = pieces x s1.items ++ s1.buf.map Piece.byte
            rw [hp1, hb1]; simp
          | invalid =>
            rw [hres] at hev
            refine bad { s1 with mode := .text } (by rw [hv, hev]) hs1 (by simp) (by simp) ?_ (invalid_reference h.begins rest hres)
            show pieces x s1.items ++ s1.buf.map Piece.byte = _
            rw [hp1, hb1]; simp
          | fail =>
            rw [hres] at hev
            rw [hv, hev] at hs
            rw [run_fail _ _ _ _ _ _ _ _ hs, hw]
            exact meets_fail ⟨n, hnm, rfl, by rw [hres]⟩
      by_cases h5 : c = 58
      · subst h5
        have hv : inVariable x false (addPlain x) bytes pre.length s 58 = some (colon false bytes pre.length s) := by
          unfold inVariable; rw [if_neg h1, if_neg h2, if_neg h3, if_neg h4, if_pos rfl]
        by_cases h6 : s.hasNs = true
        · refine more { s with isNum := false } ?_ (by decide) (fun _ => h.ns.mp h6) h.mode rfl (by simp) (by simp) rfl rfl
          rw [hv]; simp [colon, h6]
        · refine bad s ?_ rfl (by rw [h.mode]; simp) (by rw [h.mode]; simp) rfl
            (bad_reference h.begins rest (Or.inr (Or.inr ⟨rfl, fun m => h6 (h.ns.mpr m)⟩)))
          rw [hv]; simp [colon, h6]
      · refine bad s ?_ rfl (by rw [h.mode]; simp) (by rw [h.mode]; simp) rfl
          (bad_reference h.begins rest (Or.inl ⟨fun hh => ?_, h4⟩))
        · unfold inVariable; rw [if_neg h1, if_neg h2, if_neg h3, if_neg h4, if_neg h5]
        · rcases nameByte_cases hh with h | h | h | h <;> contradiction

/-- The plain pass computes the expansion, and fails exactly when there is none. -/
theorem plain_meets (x : Ext V F) (bytes : Bytes) : Meets x (tokenizePlain x bytes) [] bytes := by
  have := (plain_loop x bytes bytes [] .new rfl).1 [] [] ⟨rfl, Or.inr ⟨by simp [St.new], rfl, rfl⟩⟩
  exact this

end Run

end Sieve.Str
