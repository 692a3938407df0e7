import Verif.ScriptSteps

/-!
# Whole scripts: properties
-/

namespace Sieve.Script

open Sieve.Args

variable {F : Type} [DecidableEq F]

/-! ## C82: which token sequences are accepted, and as what -/

theorem step_sound {x : Ext F} {pre : List (Node F)} {s : St} (hf : Fits x pre s) {t : Tok F} {ts : List (Tok F)}
    {ns : List (Node F)} {s' : St} {r : List (Tok F)} (h : step x s t ts = some (ns, s', r)) :
    ∃ u, t :: ts = u ++ r ∧ u ≠ [] ∧ Fits x (pre ++ ns) s' ∧
      ((s.inTest = false ∧ Piece x (declared x pre) u r ns s'.inTest ∧ Also x pre ns) ∨
        (s.inTest = true ∧ TestPiece x (declared x pre) u r ns s'.inTest)) := by
  unfold step at h
  cases hs : s.inTest with
  | false =>
    rw [hs] at h
    obtain ⟨u, h1, h2, h3, h4, h5⟩ := cmdStep_sound hf hs h
    exact ⟨u, h1, h2, h5, .inl ⟨rfl, h3, h4⟩⟩
  | true =>
    rw [hs] at h
    obtain ⟨u, h1, h2, h3, h4⟩ := testStep_sound hf hs h
    exact ⟨u, h1, h2, h4, .inr ⟨rfl, h3⟩⟩

theorem go_sound {x : Ext F} : ∀ (n : Nat) {pre : List (Node F)} {s : St} {ts : List (Tok F)} {nodes : List (Node F)},
    Fits x pre s → go x n s ts = some nodes → IsScript x pre s.inTest ts nodes
  | n, pre, s, [], nodes, hf, h => by
    have e : go x n s [] = if s.inTest || decide (1 < s.caps.length) then none else some [] := by cases n <;> rfl
    rw [e] at h
    split at h
    · cases h
    · rename_i hc
      cases h
      rw [Bool.or_eq_true, decide_eq_true_eq, not_or] at hc
      rw [Bool.eq_false_iff.2 hc.1]
      have := hf.depth
      have := List.length_pos_iff.2 hf.ne
      exact .nil (by omega)
  | 0, pre, s, t :: ts, nodes, hf, h => by cases h
  | n + 1, pre, s, t :: ts, nodes, hf, h => by
    unfold go at h
    obtain ⟨⟨ns, s', r⟩, hst, h⟩ := Option.bind_eq_some_iff.1 h
    obtain ⟨rest, hr, h⟩ := Option.map_eq_some_iff.1 h
    subst h
    obtain ⟨u, hu, -, hf', hp⟩ := step_sound hf hst
    have ih := go_sound n hf' hr
    rw [hu]
    rcases hp with ⟨hi, hp, ha⟩ | ⟨hi, hp⟩
    · rw [hi]; exact .piece hp ha.close ha.includes ih
    · rw [hi]; exact .test hp ih

theorem piece_flag {x : Ext F} {has : Cap → Bool} {u r : List (Tok F)} {ns : List (Node F)} {b : Bool}
    (h : Piece x has u r ns b) : b = decide (ns = [.word .If] ∨ ns = [.word .ElsIf]) := by
  cases h <;> simp

theorem testPiece_flag {x : Ext F} {has : Cap → Bool} {u r : List (Tok F)} {ns : List (Node F)} {b : Bool}
    (h : TestPiece x has u r ns b) : b = decide (ns ≠ [.openB]) := by
  cases h <;> simp

theorem go_complete {x : Ext F} {pre : List (Node F)} {b : Bool} {ts : List (Tok F)} {nodes : List (Node F)}
    (h : IsScript x pre b ts nodes) : ∀ (n : Nat) (s : St), Fits x pre s → s.inTest = b → ts.length ≤ n →
    go x n s ts = some nodes := by
  have next : ∀ {n : Nat} {s s' : St} {t : Tok F} {ts r u : List (Tok F)} {ns rest : List (Node F)},
      step x s t ts = some (ns, s', r) → t :: ts = u ++ r → u ≠ [] → (t :: ts).length ≤ n →
      (∀ m, r.length ≤ m → go x m s' r = some rest) → go x n s (t :: ts) = some (ns ++ rest) := by
    intro n s s' t ts r u ns rest hst hu hne hl ih
    cases n with
    | zero => simp at hl
    | succ n =>
      have hlen : r.length < (t :: ts).length := by
        rw [hu, List.length_append]
        have := List.length_pos_iff.2 hne
        omega
      unfold go
      rw [hst]
      simp only [Option.bind_some]
      rw [ih n (by omega)]; rfl
  induction h with
  | nil hc =>
    intro n s hf hs _
    have e : go x n s [] = if s.inTest || decide (1 < s.caps.length) then none else some [] := by cases n <;> rfl
    have := hf.depth
    rw [e, hs, if_neg]
    simp; omega
  | piece hp h1 h2 _ ih =>
    intro n s hf hs hl
    obtain ⟨t, ts, s', he, hst⟩ := cmdStep_complete hf hs hp ⟨h1, h2⟩
    rw [he] at hl ⊢
    obtain ⟨u, hu, hne, hp', -, hf'⟩ := cmdStep_sound hf hs hst
    refine next (by unfold step; rw [hs]; exact hst) hu hne hl fun m hm => ih m s' hf' ?_ hm
    rw [piece_flag hp, piece_flag hp']
  | test hp _ ih =>
    intro n s hf hs hl
    obtain ⟨t, ts, s', he, hst⟩ := testStep_complete hf hp
    rw [he] at hl ⊢
    obtain ⟨u, hu, hne, hp', hf'⟩ := testStep_sound hf hs hst
    refine next (by unfold step; rw [hs]; exact hst) hu hne hl fun m hm => ih m s' hf' ?_ hm
    rw [testPiece_flag hp, testPiece_flag hp']

/-- C82: the scripts that are accepted, and what is read, are those that the grammar describes, where the extensions in
force at a place are those that a `require` before it names, in a block that is still open. -/
theorem script_iff (x : Ext F) (ts : List (Tok F)) (nodes : List (Node F)) :
    script x ts = some nodes ↔ IsScript x [] false ts nodes :=
  ⟨fun h => go_sound _ (fits_start x) h, fun h => go_complete h _ _ (fits_start x) rfl (Nat.le_refl _)⟩

/-! ## C82: extensions are declared before they are used -/

/-- The extensions that a part of a script needs.  `fileinto :mailboxid` is left out, see `fileinto_mailboxid`. -/
inductive Needs : Node F → Cap → Prop where
  | command {w : Word} {g : Got F} {c : Cap} : c ∈ rfcNames w → Needs (.cmd w g) c
  | commandTag {w t : Word} {g : Got F} {c : Cap} : Uses g t → rfcNeeds w t = some c → ¬ (w = .FileInto ∧ t = .MailboxId) →
      Needs (.cmd w g) c
  | test {w : Word} {g : Got F} {c : Cap} : c ∈ rfcNames w → Needs (.test w g) c
  | testTag {w t : Word} {g : Got F} {c : Cap} : Uses g t → rfcNeeds w t = some c → Needs (.test w g) c
  | foreverypart {l} : Needs (.foreverypart l) .ForEveryPart
  | breakName {l} : Needs (.brk (some l)) .ForEveryPart
  | loop {e} : Needs (.loop e) .While
  | continue : Needs (.word .Continue) .While
  | return : Needs (.word .Return) .Include
  | unknown {t} : Needs (.skip t) .Ihave

theorem reads_needs {x : Ext F} {has : Cap → Bool} {w : Word} {e : Entry} (he : HasEntry w e) (hc : ∀ c ∈ e.caps, has c = true)
    {u r : List (Tok F)} {g : Got F} (h : Reads x has w e.shape u r g) :
    (∀ c ∈ rfcNames w, has c = true) ∧
      ∀ t, Uses g t → ¬ (w = .FileInto ∧ t = .MailboxId) → ∀ c, rfcNeeds w t = some c → has c = true :=
  needs_partial x has he ((arguments_iff x has he (u ++ r) g r).2 ⟨hc, u, rfl, h⟩)

theorem piece_needs {x : Ext F} {has : Cap → Bool} {u r : List (Tok F)} {ns : List (Node F)} {b : Bool}
    (h : Piece x has u r ns b) {n : Node F} (hn : n ∈ ns) {c : Cap} (hc : Needs n c) :
    has c = true := by
  have two : ∀ {a : Node F}, n ∈ [a, .openB] → n = a := by
    intro a h
    rcases List.mem_cons.1 h with h | h
    · exact h
    · cases List.mem_singleton.1 h; cases hc
  cases h with
  | require => cases List.mem_singleton.1 hn; cases hc
  | «if» => cases List.mem_singleton.1 hn; cases hc
  | elsif => cases List.mem_singleton.1 hn; cases hc
  | «else» => have := two hn; subst this; cases hc
  | foreverypart h1 h2 => have := two hn; subst this; cases hc; exact h1
  | brk => cases List.mem_singleton.1 hn; cases hc
  | brkName h1 h2 => cases List.mem_singleton.1 hn; cases hc; exact h1
  | loop h1 h2 => have := two hn; subst this; cases hc; exact h1
  | «continue» h1 => cases List.mem_singleton.1 hn; cases hc; exact h1
  | «return» h1 => cases List.mem_singleton.1 hn; cases hc; exact h1
  | cmd he h1 hr =>
    cases List.mem_singleton.1 hn
    obtain ⟨n1, n2⟩ := reads_needs (.inl he) h1 hr
    cases hc with
    | command h => exact n1 _ h
    | commandTag h h' h'' => exact n2 _ h h'' _ h'
  | skipWord _ _ h1 _ => cases List.mem_singleton.1 hn; cases hc; exact h1
  | skip h1 _ => cases List.mem_singleton.1 hn; cases hc; exact h1
  | close => cases List.mem_singleton.1 hn; cases hc

theorem testPiece_needs {x : Ext F} {has : Cap → Bool} {u r : List (Tok F)} {ns : List (Node F)} {b : Bool}
    (h : TestPiece x has u r ns b) {n : Node F} (hn : n ∈ ns) {c : Cap} (hc : Needs n c) :
    has c = true := by
  cases h with
  | test he h1 hr =>
    cases List.mem_singleton.1 hn
    obtain ⟨n1, n2⟩ := reads_needs (.inr he) h1 hr
    cases hc with
    | test h => exact n1 _ h
    | testTag h h' => exact n2 _ h (by rintro ⟨rfl, -⟩; cases he) _ h'
  | word hw =>
    cases List.mem_singleton.1 hn
    cases hc <;> exact absurd hw (by decide)
  | _ => cases List.mem_singleton.1 hn; cases hc

theorem piece_tail {x : Ext F} {has : Cap → Bool} {u r : List (Tok F)} {ns : List (Node F)} {b : Bool}
    (h : Piece x has u r ns b) {n : Node F} (hn : n ∈ ns.tail) : n = .openB := by
  cases h <;> simpa using hn

theorem testPiece_tail {x : Ext F} {has : Cap → Bool} {u r : List (Tok F)} {ns : List (Node F)} {b : Bool}
    (h : TestPiece x has u r ns b) {n : Node F} (hn : n ∈ ns.tail) : n = .openB := by
  cases h <;> simp at hn

theorem script_needs {x : Ext F} {pre : List (Node F)} {b : Bool} {ts : List (Tok F)} {nodes : List (Node F)}
    (h : IsScript x pre b ts nodes) {n : Node F} {q : List (Node F)} {c : Cap} (hc : Needs n c) :
    ∀ {p : List (Node F)}, nodes = p ++ n :: q → Declared x (pre ++ p) c := by
  have next : ∀ {pre ns rest p : List (Node F)}, (n ∈ ns → declared x pre c = true) → (n ∈ ns.tail → n = .openB) →
      (∀ {p : List (Node F)}, rest = p ++ n :: q → Declared x (pre ++ ns ++ p) c) → ns ++ rest = p ++ n :: q →
      Declared x (pre ++ p) c := by
    intro pre ns rest p h1 h3 h2 he
    rcases List.append_eq_append_iff.1 he with ⟨a, rfl, ha⟩ | ⟨a, ha, ha'⟩
    · rw [← List.append_assoc]; exact h2 ha
    · cases a with
      | nil =>
        rw [List.append_nil] at ha
        subst ha
        rw [List.nil_append] at ha'
        have := h2 (p := []) ha'.symm
        rwa [List.append_nil] at this
      | cons m a =>
        injection ha' with hm ha'
        subst hm
        cases p with
        | nil =>
          rw [List.append_nil]
          have := h1 (by rw [ha]; simp)
          exact (declared_iff x pre c).1 this
        | cons k p =>
          have := h3 (by rw [ha]; simp)
          subst this; cases hc
  induction h with
  | nil => intro p he; simp at he
  | piece hp _ _ _ ih =>
    intro p he
    exact next (fun hn => piece_needs hp hn hc) (fun hn => piece_tail hp hn) ih he
  | test hp _ ih =>
    intro p he
    exact next (fun hn => testPiece_needs hp hn hc) (fun hn => testPiece_tail hp hn) ih he

/-- C82: in an accepted script, whatever needs an extension comes after a `require` that names it, in a block that is still
open; without capability check this holds for `ihave`. -/
theorem declared_before_partial (x : Ext F) {ts : List (Tok F)} {p : List (Node F)} {n : Node F} {q : List (Node F)}
    (h : script x ts = some (p ++ n :: q)) {c : Cap} (hc : Needs n c) (hx : x.noCheck = false ∨ c = .Ihave) :
    ∃ before names after, p = before ++ .require names :: after ∧ Names names c ∧
      ∀ a b, after = a ++ b → closes a ≤ opens a := by
  have := script_needs ((script_iff x ts _).1 h) hc rfl
  rw [List.nil_append] at this
  rcases this with ⟨h1, h2⟩ | h1
  · rcases hx with hx | hx
    · rw [hx] at h1; cases h1
    · exact absurd hx h2
  · exact h1

/-! ## C83: blocks, includes, unknown words -/

theorem isScript_blocks {x : Ext F} {pre : List (Node F)} {b : Bool} {ts : List (Tok F)} {nodes : List (Node F)}
    (h : IsScript x pre b ts nodes) : opens pre + opens nodes = closes pre + closes nodes := by
  induction h with
  | nil h => simpa [opens, closes] using h
  | piece _ _ _ _ ih => rw [opens_append, closes_append] at ih ⊢; omega
  | test _ _ ih => rw [opens_append, closes_append] at ih ⊢; omega

theorem piece_closes {x : Ext F} {has : Cap → Bool} {u r : List (Tok F)} {ns : List (Node F)} {b : Bool}
    (h : Piece x has u r ns b) : ns = [.closeB] ∨ ∀ a c, ns = a ++ c → closes a = 0 := by
  by_cases hc : ns = [.closeB]
  · exact .inl hc
  · refine .inr fun a c he => ?_
    have : closes ns = 0 := by
      cases h <;> first | rfl | exact absurd rfl hc
    rw [he, closes_append] at this
    omega

theorem testPiece_closes {x : Ext F} {has : Cap → Bool} {u r : List (Tok F)} {ns : List (Node F)} {b : Bool}
    (h : TestPiece x has u r ns b) (a c : List (Node F)) (he : ns = a ++ c) : closes a = 0 := by
  have : closes ns = 0 := by cases h <;> rfl
  rw [he, closes_append] at this
  omega

theorem isScript_open {x : Ext F} {pre : List (Node F)} {b : Bool} {ts : List (Tok F)} {nodes : List (Node F)}
    (h : IsScript x pre b ts nodes) : closes pre ≤ opens pre → ∀ {p q : List (Node F)}, nodes = p ++ q →
      closes (pre ++ p) ≤ opens (pre ++ p) := by
  have next : ∀ {pre ns rest p q : List (Node F)}, (∀ a c, ns = a ++ c → closes (pre ++ a) ≤ opens (pre ++ a)) →
      (∀ {p q : List (Node F)}, rest = p ++ q → closes (pre ++ ns ++ p) ≤ opens (pre ++ ns ++ p)) →
      ns ++ rest = p ++ q → closes (pre ++ p) ≤ opens (pre ++ p) := by
    intro pre ns rest p q h1 h2 he
    rcases List.append_eq_append_iff.1 he with ⟨a, rfl, ha⟩ | ⟨a, ha, ha'⟩
    · rw [← List.append_assoc]; exact h2 ha
    · exact h1 p a ha
  have zero : ∀ {pre a : List (Node F)}, closes pre ≤ opens pre → closes a = 0 → closes (pre ++ a) ≤ opens (pre ++ a) := by
    intro pre a h1 h2
    rw [closes_append, opens_append]; omega
  induction h with
  | nil =>
    intro hp p q he
    obtain ⟨rfl, -⟩ := List.append_eq_nil_iff.1 he.symm
    rw [List.append_nil]; exact hp
  | piece hp hc _ _ ih =>
    intro ho p q he
    refine next (q := q) ?_ (ih ?_) he
    · intro a c hac
      rcases piece_closes hp with rfl | h0
      · have h1 := hc rfl
        cases a with
        | nil => rw [List.append_nil]; exact ho
        | cons m a =>
          injection hac with hm ha
          obtain ⟨rfl, -⟩ := List.append_eq_nil_iff.1 ha.symm
          subst hm
          rw [closes_append, opens_append]
          change _ + 1 ≤ _ + 0
          omega
      · exact zero ho (h0 a c hac)
    · rcases piece_closes hp with rfl | h0
      · have h1 := hc rfl
        rw [closes_append, opens_append]
        change _ + 1 ≤ _ + 0
        omega
      · exact zero ho (h0 _ [] (List.append_nil _).symm)
  | test hp _ ih =>
    intro ho p q he
    exact next (q := q) (fun a c hac => zero ho (testPiece_closes hp a c hac))
      (ih (zero ho (testPiece_closes hp _ [] (List.append_nil _).symm))) he

/-- C83: the blocks of an accepted script are closed, and none is closed that was not opened. -/
theorem blocks_closed (x : Ext F) {ts : List (Tok F)} {nodes : List (Node F)} (h : script x ts = some nodes) :
    opens nodes = closes nodes ∧ ∀ p q, nodes = p ++ q → closes p ≤ opens p := by
  have h' := (script_iff x ts nodes).1 h
  refine ⟨?_, fun p q he => isScript_open h' (Nat.le_refl _) he⟩
  have := isScript_blocks h'
  simpa [opens, closes] using this

theorem isScript_includes {x : Ext F} {pre : List (Node F)} {b : Bool} {ts : List (Tok F)} {nodes : List (Node F)}
    (h : IsScript x pre b ts nodes) (hp : pre.countP isInclude ≤ x.maxIncludes) :
    (pre ++ nodes).countP isInclude ≤ x.maxIncludes := by
  induction h with
  | nil => rw [List.append_nil]; exact hp
  | @piece _ _ _ ns _ _ hq _ hi _ ih =>
    rw [← List.append_assoc]
    refine ih ?_
    rw [List.countP_append]
    by_cases ha : ns.any isInclude = true
    · have := hi ha
      have h1 : ns.countP isInclude ≤ 1 := by
        cases hq <;> first | exact Nat.zero_le _ | (rw [List.countP_singleton]; split <;> omega)
      omega
    · rw [Bool.not_eq_true, List.any_eq_false] at ha
      rw [List.countP_eq_zero.2 ha]
      exact hp
  | @test _ _ _ ns _ _ hq _ ih =>
    rw [← List.append_assoc]
    refine ih ?_
    rw [List.countP_append]
    have : ns.countP isInclude = 0 := by cases hq <;> rfl
    rw [this]; exact hp

/-- C83: a script has at most `max_includes` commands `include`. -/
theorem include_limit (x : Ext F) {ts : List (Tok F)} {nodes : List (Node F)} (h : script x ts = some nodes) :
    nodes.countP isInclude ≤ x.maxIncludes :=
  isScript_includes ((script_iff x ts nodes).1 h) (Nat.zero_le _)

/-! ### Concrete scripts -/

/-- `require ["fileinto", "ihave"]; if true { require "copy"; fileinto :copy "a"; } foo { bar; } fileinto "b";` -/
def someScript : List (Tok Unit) :=
  [.ident .Require, .bracketOpen, .string (bytes "fileinto"), .comma, .string (bytes "ihave"), .bracketClose, .semicolon,
    .ident .If, .ident .True, .curlyOpen,
      .ident .Require, .string (bytes "copy"), .semicolon,
      .ident .FileInto, .tag .Copy, .string (bytes "a"), .semicolon,
    .curlyClose,
    .unknown (bytes "foo"), .curlyOpen, .unknown (bytes "bar"), .semicolon, .curlyClose,
    .ident .FileInto, .string (bytes "b"), .semicolon]

example : script someExt someScript = some [.require [bytes "fileinto", bytes "ihave"],
    .word .If, .word .True, .openB, .require [bytes "copy"],
    .cmd .FileInto ⟨[(.Copy, .flag)], [.val (.text (bytes "a"))]⟩, .closeB, .skip (.unknown (bytes "foo")),
    .cmd .FileInto ⟨[], [.val (.text (bytes "b"))]⟩] := by decide +kernel

example : someExt.noCheck = false ∧
    Needs (.cmd .FileInto ⟨[(.Copy, .flag)], [.val (.text (bytes "a"))]⟩ : Node Unit) .Copy :=
  ⟨rfl, .commandTag (t := .Copy) ⟨_, List.mem_cons_self⟩ rfl (by decide)⟩

/-- What is declared in a block ends with it: `if true { require "copy"; } fileinto :copy "a";` -/
example : script someExt [.ident .Require, .string (bytes "fileinto"), .semicolon, .ident .If, .ident .True, .curlyOpen,
    .ident .Require, .string (bytes "copy"), .semicolon, .curlyClose,
    .ident .FileInto, .tag .Copy, .string (bytes "a"), .semicolon] = none := by decide +kernel

/-! ### Where the code departs from the documents -/

/-- C82 fails for unknown tests: `if foo { keep; }` is accepted although RFC 5463, 3.1, allows unknown tests only in scripts
that declare `ihave`; an unknown command is refused. -/
theorem unknown_test_undeclared :
    (script someExt [.ident .If, .unknown (bytes "foo"), .curlyOpen, .ident .Keep, .semicolon, .curlyClose]).isSome = true ∧
    script someExt [.unknown (bytes "foo"), .semicolon] = none := by decide +kernel

/-- C82 fails for unknown tests with a string list: `require "ihave"; if foo ["a", "b"] { }` is refused, since the test is
taken to end at the comma, although RFC 5463 lets unknown tests have any arguments. -/
theorem unknown_test_list :
    script someExt [.ident .Require, .string (bytes "ihave"), .semicolon, .ident .If, .unknown (bytes "foo"), .bracketOpen,
      .string (bytes "a"), .comma, .string (bytes "b"), .bracketClose, .curlyOpen, .curlyClose] = none ∧
    (script someExt [.ident .Require, .string (bytes "ihave"), .semicolon, .ident .If, .unknown (bytes "foo"), .bracketOpen,
      .string (bytes "a"), .bracketClose, .curlyOpen, .curlyClose]).isSome = true := by decide +kernel

/-- RFC 5228, 3.2: "require MUST be used before any other commands"; `keep; require "fileinto";` is accepted. -/
theorem require_late :
    script someExt [.ident .Keep, .semicolon, .ident .Require, .string (bytes "fileinto"), .semicolon] =
      some [.cmd .Keep {}, .require [bytes "fileinto"]] := by decide +kernel

end Sieve.Script
