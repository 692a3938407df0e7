import Verif.ScriptScope
import Verif.ScriptLemmas

/-!
# Whole scripts: one step

Each round of the loop of `ScriptModel` takes one piece of `ScriptSpec`.
-/

namespace Sieve.Script

open Sieve.Args

variable {F : Type} [DecidableEq F]

theorem expect_iff (t : Tok F) (ts r : List (Tok F)) : expect t ts = some r ↔ ts = t :: r := by
  cases ts with
  | nil => simp [expect]
  | cons u ts =>
    simp only [expect]
    by_cases h : u = t
    · rw [if_pos h, h]; simp
    · rw [if_neg h]; simp [h]

theorem finish_iff (n : Node F) (s : St) (ts : List (Tok F)) (ns : List (Node F)) (s' : St) (r : List (Tok F)) :
    finish n s ts = some (ns, s', r) ↔ ns = [n] ∧ s' = s ∧ ts = .semicolon :: r := by
  unfold finish
  rw [Option.map_eq_some_iff]
  constructor
  · rintro ⟨r', h, e⟩
    cases e
    exact ⟨rfl, rfl, (expect_iff _ _ _).1 h⟩
  · rintro ⟨rfl, rfl, h⟩
    exact ⟨r, (expect_iff _ _ _).2 h, rfl⟩

theorem enter_iff (n : Node F) (s : St) (ts : List (Tok F)) (ns : List (Node F)) (s' : St) (r : List (Tok F)) :
    enter n s ts = some (ns, s', r) ↔ ns = [n, .openB] ∧ s' = { s with caps := [] :: s.caps } ∧ ts = .curlyOpen :: r := by
  unfold enter
  rw [Option.map_eq_some_iff]
  constructor
  · rintro ⟨r', h, e⟩
    cases e
    exact ⟨rfl, rfl, (expect_iff _ _ _).1 h⟩
  · rintro ⟨rfl, rfl, h⟩
    exact ⟨r, (expect_iff _ _ _).2 h, rfl⟩

theorem unknownCmd_iff (x : Ext F) (s : St) (t : Tok F) (ts : List (Tok F)) (ns : List (Node F)) (s' : St) (r : List (Tok F)) :
    unknownCmd x s t ts = some (ns, s', r) ↔ hasCap x s.caps .Ihave = true ∧ ns = [.skip t] ∧ s' = s ∧
      ∃ u, ts = u ++ r ∧ IsRest u := by
  unfold unknownCmd
  by_cases h : hasCap x s.caps .Ihave = true
  · rw [if_pos h, Option.map_eq_some_iff]
    constructor
    · rintro ⟨r', h', e⟩
      cases e
      exact ⟨h, rfl, rfl, (skipCmd_iff _ _).1 h'⟩
    · rintro ⟨-, rfl, rfl, h'⟩
      exact ⟨r, (skipCmd_iff _ _).2 h', rfl⟩
  · rw [if_neg h]
    exact ⟨fun h' => (by cases h'), fun h' => absurd h'.1 h⟩

/-- The words with a branch of their own. -/
theorem command_default (x : Ext F) (s : St) {w : Word} (h : w ∉ special) (hi : w ≠ .Include) (ts : List (Tok F)) :
    command x s w ts = match commandEntry w with
      | some e => (readEntry x (hasCap x s.caps) w e ts).bind fun p => finish (.cmd w p.1) s p.2
      | none => unknownCmd x s (.ident w) ts := by
  cases w <;> first | rfl | exact absurd rfl hi | exact absurd (by decide) h

theorem entry_special {w : Word} {e : Entry} (h : commandEntry w = some e) : w ∉ special := by
  intro hs
  cases w <;> first | exact absurd hs (by decide) | cases h

theorem commandEntry_include : ∃ e, commandEntry .Include = some e := ⟨_, rfl⟩

/-- The conditions of `IsScript.piece`. -/
structure Also (x : Ext F) (pre ns : List (Node F)) : Prop where
  close : ns = [.closeB] → closes pre < opens pre
  includes : ns.any isInclude = true → pre.countP isInclude < x.maxIncludes

theorem also_of {x : Ext F} {pre ns : List (Node F)} (h1 : ns ≠ [.closeB]) (h2 : ns.any isInclude = false) : Also x pre ns :=
  ⟨fun h => absurd h h1, fun h => by rw [h2] at h; cases h⟩

variable {x : Ext F} {pre : List (Node F)} {s : St}

theorem isInclude_cmd {w : Word} (h : w ≠ .Include) (g : Got F) : isInclude (.cmd w g) = false := by
  cases w <;> first | rfl | exact absurd rfl h

/-- `Reads` for commands, from the reader. -/
theorem reads_of {has : Cap → Bool} {w : Word} {e : Entry} (he : commandEntry w = some e) {ts r : List (Tok F)} {g : Got F} :
    readEntry x has w e ts = some (g, r) ↔ (∀ c ∈ e.caps, has c = true) ∧ ∃ u, ts = u ++ r ∧ Reads x has w e.shape u r g :=
  arguments_iff x has (.inl he) ts g r

theorem expr_iff (has : Cap → Bool) (ts : List (Tok F)) (e : List UInt8) (r : List (Tok F)) :
    readPos x has .expr ts = some (.text e, r) ↔ ∃ t, ts = t :: r ∧ PosIs x has .expr [t] (.text e) := by
  rw [readPos_iff]
  constructor
  · rintro ⟨u, rfl, h⟩
    have : ∃ t, u = [t] := by cases h <;> exact ⟨_, rfl⟩
    obtain ⟨t, rfl⟩ := this
    exact ⟨t, rfl, h⟩
  · rintro ⟨t, rfl, h⟩
    exact ⟨[t], rfl, h⟩

theorem expr_text {has : Cap → Bool} {ts : List (Tok F)} {a : Arg F} {r : List (Tok F)}
    (h : readPos x has .expr ts = some (a, r)) : ∃ e, a = .text e := by
  obtain ⟨u, -, h⟩ := (readPos_iff x has .expr ts a r).1 h
  cases h <;> exact ⟨_, rfl⟩

/-- A step outside of a test takes a piece. -/
theorem cmdStep_sound (hf : Fits x pre s) (hs : s.inTest = false) {t : Tok F} {ts : List (Tok F)} {ns : List (Node F)} {s' : St}
    {r : List (Tok F)} (h : cmdStep x s t ts = some (ns, s', r)) :
    ∃ u, t :: ts = u ++ r ∧ u ≠ [] ∧ Piece x (declared x pre) u r ns s'.inTest ∧ Also x pre ns ∧ Fits x (pre ++ ns) s' := by
  have hh := fits_has hf
  have unk : ∀ {t : Tok F}, (∀ u, hasCap x s.caps .Ihave = true → IsRest u →
      Piece x (declared x pre) (t :: u) r [.skip t] false) → unknownCmd x s t ts = some (ns, s', r) →
      ∃ u, t :: ts = u ++ r ∧ u ≠ [] ∧ Piece x (declared x pre) u r ns s'.inTest ∧ Also x pre ns ∧ Fits x (pre ++ ns) s' := by
    intro t hp h
    obtain ⟨h1, rfl, rfl, u, rfl, hu⟩ := (unknownCmd_iff x s t ts ns s' r).1 h
    refine ⟨t :: u, rfl, by simp, hs ▸ hp u h1 hu, also_of (by simp) rfl, ?_⟩
    exact fits_neutral hf (by simp) (by simp) (by simp) rfl s'.inTest
  unfold cmdStep at h
  cases t with
  | ident w =>
    simp only at h
    by_cases hw : w ∈ special
    · simp only [special, List.mem_cons, List.not_mem_nil, or_false] at hw
      rcases hw with rfl | rfl | rfl | rfl | rfl | rfl | rfl | rfl | rfl
      · obtain ⟨p, hp, h⟩ := Option.bind_eq_some_iff.1 h
        obtain ⟨rfl, rfl, hr⟩ := (finish_iff _ _ _ _ _ _).1 h
        obtain ⟨u, hu, hq⟩ := (readRequire_iff x ts p.1 p.2).1 hp
        refine ⟨.ident .Require :: u ++ [.semicolon], by rw [hu, hr]; simp, by simp, ?_, also_of (by simp) rfl,
          fits_require hf p.1⟩
        change Piece x _ _ _ _ s.inTest
        rw [hs]
        exact .require hq
      · cases h
        exact ⟨[.ident .If], rfl, by simp, .if, also_of (by simp) rfl,
          fits_neutral hf (by simp) (by simp) (by simp) rfl true⟩
      · cases h
        exact ⟨[.ident .ElsIf], rfl, by simp, .elsif, also_of (by simp) rfl,
          fits_neutral hf (by simp) (by simp) (by simp) rfl true⟩
      · obtain ⟨rfl, rfl, rfl⟩ := (enter_iff _ _ _ _ _ _).1 h
        refine ⟨[.ident .Else, .curlyOpen], rfl, by simp, ?_, also_of (by simp) rfl, ?_⟩
        · change Piece x _ _ _ _ s.inTest
          rw [hs]
          exact .else
        · have := fits_open (fits_neutral hf (n := .word .Else) (by simp) (by simp) (by simp) rfl s.inTest) s.inTest
          rw [List.append_assoc] at this
          exact this
      · unfold command at h
        simp only at h
        by_cases hc : hasCap x s.caps .ForEveryPart = true
        · rw [if_pos hc] at h
          obtain ⟨p, hp, h⟩ := Option.bind_eq_some_iff.1 h
          obtain ⟨rfl, rfl, hr⟩ := (enter_iff _ _ _ _ _ _).1 h
          obtain ⟨u, hu, hq⟩ := (readLabel_iff x ts p.1 p.2).1 hp
          refine ⟨.ident .ForEveryPart :: u ++ [.curlyOpen], by rw [hu, hr]; simp, by simp, ?_, also_of (by simp) rfl, ?_⟩
          · change Piece x _ _ _ _ s.inTest
            rw [hs]
            exact .foreverypart (hh ▸ hc) (hr ▸ hq)
          · have := fits_open (fits_neutral hf (n := .foreverypart p.1) (by simp) (by simp) (by simp) rfl s.inTest) s.inTest
            rw [List.append_assoc] at this
            exact this
        · rw [if_neg hc] at h; cases h
      · unfold command at h
        simp only at h
        obtain ⟨p, hp, h⟩ := Option.bind_eq_some_iff.1 h
        by_cases hc : (p.1.isNone || hasCap x s.caps .ForEveryPart) = true
        · rw [if_pos hc] at h
          obtain ⟨rfl, rfl, hr⟩ := (finish_iff _ _ _ _ _ _).1 h
          obtain ⟨u, hu, hq⟩ := (readLabel_iff x ts p.1 p.2).1 hp
          refine ⟨.ident .Break :: u ++ [.semicolon], by rw [hu, hr]; simp, by simp, ?_, also_of (by simp) rfl, ?_⟩
          · rw [hs]
            generalize hl : p.1 = l at hq hc ⊢
            cases hq with
            | none _ => exact .brk
            | some hst => exact .brkName (hh ▸ (by simpa using hc)) hst
          · exact fits_neutral hf (n := .brk p.1) (by simp) (by simp) (by simp) rfl s'.inTest
        · rw [if_neg hc] at h; cases h
      · unfold command at h
        simp only at h
        by_cases hc : hasCap x s.caps .While = true
        · rw [if_pos hc] at h
          obtain ⟨p, hp, h⟩ := Option.bind_eq_some_iff.1 h
          obtain ⟨a, r1⟩ := p
          obtain ⟨e, rfl⟩ := expr_text hp
          obtain ⟨rfl, rfl, hr⟩ := (enter_iff _ _ _ _ _ _).1 h
          obtain ⟨t, hu, hq⟩ := (expr_iff _ _ _ _).1 hp
          refine ⟨[.ident .While, t, .curlyOpen], by rw [hu]; simp only at hr ⊢; rw [hr]; rfl, by simp, ?_,
            also_of (by simp) rfl, ?_⟩
          · change Piece x _ _ _ _ s.inTest
            rw [hs]
            exact .loop (hh ▸ hc) (hh ▸ hq)
          · have := fits_open (fits_neutral hf (n := .loop e) (by simp) (by simp) (by simp) rfl s.inTest) s.inTest
            rw [List.append_assoc] at this
            exact this
        · rw [if_neg hc] at h; cases h
      · unfold command at h
        simp only at h
        by_cases hc : hasCap x s.caps .While = true
        · rw [if_pos hc] at h
          obtain ⟨rfl, rfl, rfl⟩ := (finish_iff _ _ _ _ _ _).1 h
          exact ⟨[.ident .Continue, .semicolon], rfl, by simp, hs ▸ .continue (hh ▸ hc), also_of (by simp) rfl,
            fits_neutral hf (by simp) (by simp) (by simp) rfl s'.inTest⟩
        · rw [if_neg hc] at h; cases h
      · unfold command at h
        simp only at h
        by_cases hc : hasCap x s.caps .Include = true
        · rw [if_pos hc] at h
          obtain ⟨rfl, rfl, rfl⟩ := (finish_iff _ _ _ _ _ _).1 h
          exact ⟨[.ident .Return, .semicolon], rfl, by simp, hs ▸ .return (hh ▸ hc), also_of (by simp) rfl,
            fits_neutral hf (by simp) (by simp) (by simp) rfl s'.inTest⟩
        · rw [if_neg hc] at h; cases h
    · by_cases hi : w = .Include
      · subst hi
        unfold command at h
        simp only at h
        by_cases hl : s.includes < x.maxIncludes
        · rw [if_pos hl] at h
          obtain ⟨e, he, h⟩ := Option.bind_eq_some_iff.1 h
          obtain ⟨p, hp, h⟩ := Option.bind_eq_some_iff.1 h
          obtain ⟨rfl, rfl, hr⟩ := (finish_iff _ _ _ _ _ _).1 h
          obtain ⟨hc, u, hu, hq⟩ := (reads_of he).1 hp
          refine ⟨.ident .Include :: u ++ [.semicolon], by rw [hu, hr]; simp, by simp, ?_, ⟨by simp, fun _ => ?_⟩, ?_⟩
          · change Piece x _ _ _ _ s.inTest
            rw [hs, ← hh]
            exact .cmd he hc (hr ▸ hq)
          · rw [← hf.includes]; exact hl
          · exact fits_include hf rfl
        · rw [if_neg hl] at h; cases h
      · rw [command_default x s hw hi] at h
        cases he : commandEntry w with
        | some e =>
          rw [he] at h
          obtain ⟨p, hp, h⟩ := Option.bind_eq_some_iff.1 h
          obtain ⟨rfl, rfl, hr⟩ := (finish_iff _ _ _ _ _ _).1 h
          obtain ⟨hc, u, hu, hq⟩ := (reads_of he).1 hp
          refine ⟨.ident w :: u ++ [.semicolon], by rw [hu, hr]; simp, by simp, ?_, also_of (by simp) ?_, ?_⟩
          · rw [hs, ← hh]
            exact .cmd he hc (hr ▸ hq)
          · simp [isInclude_cmd hi]
          · exact fits_neutral hf (by simp) (by simp) (by simp) (isInclude_cmd hi _) s'.inTest
        | none =>
          rw [he] at h
          exact unk (fun u h1 h2 => .skipWord hw he (hh ▸ h1) h2) h
  | curlyClose =>
    simp only at h
    by_cases hl : 1 < s.caps.length
    · rw [if_pos hl] at h
      cases h
      refine ⟨[.curlyClose], rfl, by simp, ?_, ⟨fun _ => ?_, fun h => by cases h⟩, fits_close hf hl⟩
      · change Piece x _ _ _ _ s.inTest
        rw [hs]
        exact .close
      · have := hf.depth; omega
    · rw [if_neg hl] at h; cases h
  | unknown n => exact unk (fun u h1 h2 => .skip (hh ▸ h1) h2) h
  | _ => cases h

theorem cmdStep_ident (x : Ext F) (s : St) (w : Word) (ts : List (Tok F)) : cmdStep x s (.ident w) ts = command x s w ts := rfl

/-- Each piece outside of a test is taken. -/
theorem cmdStep_complete (hf : Fits x pre s) (hs : s.inTest = false) {u r : List (Tok F)} {ns : List (Node F)} {b : Bool}
    (h : Piece x (declared x pre) u r ns b) (ha : Also x pre ns) :
    ∃ t ts s', u ++ r = t :: ts ∧ cmdStep x s t ts = some (ns, s', r) := by
  have hh := fits_has hf
  rw [← hh] at h
  cases h with
  | require h =>
    rename_i u names
    refine ⟨.ident .Require, u ++ .semicolon :: r, { s with caps := (addCaps x s.caps names).1 }, by simp, ?_⟩
    change (readRequire x _).bind _ = _
    rw [(readRequire_iff x _ names (.semicolon :: r)).2 ⟨u, rfl, h⟩]
    exact (finish_iff _ _ _ _ _ _).2 ⟨rfl, rfl, rfl⟩
  | «if» => exact ⟨.ident .If, r, _, rfl, rfl⟩
  | elsif => exact ⟨.ident .ElsIf, r, _, rfl, rfl⟩
  | «else» => exact ⟨.ident .Else, .curlyOpen :: r, { s with caps := [] :: s.caps }, rfl,
      (enter_iff (.word .Else) s (.curlyOpen :: r) _ _ _).2 ⟨rfl, rfl, rfl⟩⟩
  | foreverypart hc hl =>
    rename_i u l
    refine ⟨.ident .ForEveryPart, u ++ .curlyOpen :: r, { s with caps := [] :: s.caps }, by simp, ?_⟩
    rw [cmdStep_ident]
    unfold command
    simp only
    rw [if_pos hc, (readLabel_iff x _ l (.curlyOpen :: r)).2 ⟨u, rfl, hl⟩]
    exact (enter_iff _ _ _ _ _ _).2 ⟨rfl, rfl, rfl⟩
  | brk =>
    refine ⟨.ident .Break, .semicolon :: r, s, by simp, ?_⟩
    rw [cmdStep_ident]
    unfold command
    simp only
    rw [readLabel_other (x := x) (ts := .semicolon :: r) (by simp)]
    exact (finish_iff (.brk none) s (.semicolon :: r) _ _ r).2 ⟨rfl, rfl, rfl⟩
  | brkName hc hl =>
    rename_i u l
    refine ⟨.ident .Break, .tag .Name :: u ++ .semicolon :: r, s, by simp, ?_⟩
    rw [cmdStep_ident]
    unfold command
    simp only
    rw [(readLabel_iff x _ (some l) (.semicolon :: r)).2 ⟨.tag .Name :: u, rfl, .some hl⟩]
    simp only [Option.bind_some, hc, Bool.or_true, if_true]
    exact (finish_iff _ _ _ _ _ _).2 ⟨rfl, rfl, rfl⟩
  | loop hc he =>
    rename_i t e
    refine ⟨.ident .While, t :: .curlyOpen :: r, { s with caps := [] :: s.caps }, rfl, ?_⟩
    rw [cmdStep_ident]
    unfold command
    simp only
    rw [if_pos hc, (expr_iff _ _ e (.curlyOpen :: r)).2 ⟨t, rfl, he⟩]
    exact (enter_iff _ _ _ _ _ _).2 ⟨rfl, rfl, rfl⟩
  | «continue» hc =>
    refine ⟨.ident .Continue, .semicolon :: r, s, rfl, ?_⟩
    rw [cmdStep_ident]
    unfold command
    simp only
    rw [if_pos hc]
    exact (finish_iff _ _ _ _ _ _).2 ⟨rfl, rfl, rfl⟩
  | «return» hc =>
    refine ⟨.ident .Return, .semicolon :: r, s, rfl, ?_⟩
    rw [cmdStep_ident]
    unfold command
    simp only
    rw [if_pos hc]
    exact (finish_iff _ _ _ _ _ _).2 ⟨rfl, rfl, rfl⟩
  | cmd he hc hr =>
    rename_i w e u g
    have hrd := (reads_of he).2 ⟨hc, u, rfl, hr⟩
    by_cases hi : w = .Include
    · subst hi
      refine ⟨.ident .Include, u ++ .semicolon :: r, { s with includes := s.includes + 1 }, by simp, ?_⟩
      rw [cmdStep_ident]
      unfold command
      simp only
      rw [if_pos (by rw [hf.includes]; exact ha.includes rfl), he]
      simp only [Option.bind_some]
      rw [hrd]
      exact (finish_iff _ _ _ _ _ _).2 ⟨rfl, rfl, rfl⟩
    · refine ⟨.ident w, u ++ .semicolon :: r, s, by simp, ?_⟩
      rw [cmdStep_ident]
      rw [command_default x s (entry_special he) hi, he]
      simp only
      rw [hrd]
      exact (finish_iff _ _ _ _ _ _).2 ⟨rfl, rfl, rfl⟩
  | skipWord hw he hc hr =>
    rename_i w u
    refine ⟨.ident w, u ++ r, s, rfl, ?_⟩
    rw [cmdStep_ident]
    rw [command_default x s hw (by rintro rfl; cases he), he]
    exact (unknownCmd_iff _ _ _ _ _ _ _).2 ⟨hc, rfl, rfl, u, rfl, hr⟩
  | skip hc hr =>
    rename_i n u
    exact ⟨.unknown n, u ++ r, s, rfl, (unknownCmd_iff _ _ _ _ _ _ _).2 ⟨hc, rfl, rfl, u, rfl, hr⟩⟩
  | close =>
    refine ⟨.curlyClose, r, { s with caps := s.caps.tail }, rfl, ?_⟩
    have := ha.close rfl
    have hd := hf.depth
    change (if 1 < s.caps.length then _ else _) = _
    rw [if_pos (by omega)]

/-- A step of a test takes a piece of it. -/
theorem testStep_sound (hf : Fits x pre s) (hs : s.inTest = true) {t : Tok F} {ts : List (Tok F)} {ns : List (Node F)} {s' : St}
    {r : List (Tok F)} (h : testStep x s t ts = some (ns, s', r)) :
    ∃ u, t :: ts = u ++ r ∧ u ≠ [] ∧ TestPiece x (declared x pre) u r ns s'.inTest ∧ Fits x (pre ++ ns) s' := by
  have hh := fits_has hf
  unfold testStep at h
  cases t with
  | curlyOpen => cases h; exact ⟨[.curlyOpen], rfl, by simp, .open, fits_open hf false⟩
  | comma => cases h; exact ⟨[.comma], rfl, by simp, hs ▸ .comma, fits_neutral hf (by simp) (by simp) (by simp) rfl _⟩
  | parenOpen => cases h; exact ⟨[.parenOpen], rfl, by simp, hs ▸ .popen, fits_neutral hf (by simp) (by simp) (by simp) rfl _⟩
  | parenClose =>
    cases h; exact ⟨[.parenClose], rfl, by simp, hs ▸ .pclose, fits_neutral hf (by simp) (by simp) (by simp) rfl _⟩
  | ident w =>
    simp only at h
    by_cases hw : w ∈ [Word.Not, .AnyOf, .AllOf, .True, .False]
    · rw [if_pos hw] at h
      cases h
      exact ⟨[.ident w], rfl, by simp, hs ▸ .word hw, fits_neutral hf (by simp) (by simp) (by simp) rfl _⟩
    · rw [if_neg hw] at h
      cases he : testEntry w with
      | some e =>
        rw [he] at h
        obtain ⟨p, hp, h⟩ := Option.map_eq_some_iff.1 h
        cases h
        obtain ⟨hc, u, rfl, hq⟩ := (arguments_iff x _ (.inr he) ts p.1 p.2).1 hp
        refine ⟨.ident w :: u, rfl, by simp, ?_, fits_neutral hf (by simp) (by simp) (by simp) rfl _⟩
        rw [hs, ← hh]
        exact .test he hc hq
      | none =>
        rw [he] at h
        simp only [Option.some.injEq, Prod.mk.injEq] at h
        obtain ⟨rfl, rfl, h⟩ := h
        obtain ⟨u, rfl, hu⟩ := (skipTest_iff ts r).1 h
        exact ⟨.ident w :: u, rfl, by simp, hs ▸ .badWord hw he hu, fits_neutral hf (by simp) (by simp) (by simp) rfl _⟩
  | unknown n =>
    simp only [Option.some.injEq, Prod.mk.injEq] at h
    obtain ⟨rfl, rfl, h⟩ := h
    obtain ⟨u, rfl, hu⟩ := (skipTest_iff ts r).1 h
    exact ⟨.unknown n :: u, rfl, by simp, hs ▸ .bad hu, fits_neutral hf (by simp) (by simp) (by simp) rfl _⟩
  | _ => cases h

theorem testEntry_structural {w : Word} {e : Entry} (h : testEntry w = some e) : w ∉ structural := by
  intro hs
  cases w <;> first | exact absurd hs (by decide) | cases h

/-- Each piece of a test is taken. -/
theorem testStep_complete (hf : Fits x pre s) {u r : List (Tok F)} {ns : List (Node F)} {b : Bool}
    (h : TestPiece x (declared x pre) u r ns b) : ∃ t ts s', u ++ r = t :: ts ∧ testStep x s t ts = some (ns, s', r) := by
  have hh := fits_has hf
  rw [← hh] at h
  cases h with
  | «open» => exact ⟨_, _, _, rfl, rfl⟩
  | comma => exact ⟨_, _, _, rfl, rfl⟩
  | popen => exact ⟨_, _, _, rfl, rfl⟩
  | pclose => exact ⟨_, _, _, rfl, rfl⟩
  | word h =>
    rename_i w
    refine ⟨.ident w, r, s, rfl, ?_⟩
    change (if w ∈ structural then _ else _) = _
    rw [if_pos h]
  | test he hc hr =>
    rename_i w e u g
    refine ⟨.ident w, u ++ r, s, rfl, ?_⟩
    change (if w ∈ structural then _ else _) = _
    rw [if_neg (testEntry_structural he), he]
    simp only
    rw [(arguments_iff x _ (.inr he) _ g r).2 ⟨hc, u, rfl, hr⟩]; rfl
  | badWord hw he hr =>
    rename_i w u
    refine ⟨.ident w, u ++ r, s, rfl, ?_⟩
    change (if w ∈ structural then _ else _) = _
    rw [if_neg hw, he]
    simp only
    rw [(skipTest_iff _ r).2 ⟨u, rfl, hr⟩]
  | bad hr =>
    rename_i n u
    refine ⟨.unknown n, u ++ r, s, rfl, ?_⟩
    change some _ = _
    rw [(skipTest_iff _ r).2 ⟨u, rfl, hr⟩]

end Sieve.Script
