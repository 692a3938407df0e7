import Verif.HvarLemmas

/-!
# Properties of variables with a namespace and of header variables (C86–C89)
-/

namespace Sieve.Hvar

variable {N : Type} {hn : List Char → Option N}

/-! ### C86: names of variables -/

theorem env_iff {v : List Char} {e : Env} : env? v = some e ↔ ∃ w, (w, e) ∈ envNames ∧ v = w.toList := by
  constructor
  · intro h
    unfold env? at h
    iterate 10
      rcases ite_or h with ⟨h1, h2⟩ | h
      · cases h2
        exact ⟨_, by simp [envNames], h1⟩
    cases h
  · rintro ⟨w, hw, rfl⟩
    simp only [envNames, List.mem_cons, Prod.mk.injEq, List.not_mem_nil, or_false] at hw
    rcases hw with ⟨rfl, rfl⟩ | ⟨rfl, rfl⟩ | ⟨rfl, rfl⟩ | ⟨rfl, rfl⟩ | ⟨rfl, rfl⟩ | ⟨rfl, rfl⟩ | ⟨rfl, rfl⟩ | ⟨rfl, rfl⟩ |
      ⟨rfl, rfl⟩ | ⟨rfl, rfl⟩ <;> decide +kernel

theorem env_ne {w : String} {e : Env} (h : (w, e) ∈ envNames) : w.toList ≠ [] := by
  simp only [envNames, List.mem_cons, Prod.mk.injEq, List.not_mem_nil, or_false] at h
  rcases h with ⟨rfl, rfl⟩ | ⟨rfl, rfl⟩ | ⟨rfl, rfl⟩ | ⟨rfl, rfl⟩ | ⟨rfl, rfl⟩ | ⟨rfl, rfl⟩ | ⟨rfl, rfl⟩ | ⟨rfl, rfl⟩ |
      ⟨rfl, rfl⟩ | ⟨rfl, rfl⟩ <;> decide +kernel

theorem asciiChar_dot {c : Char} : Scope.asciiChar c = '.' ↔ c = '.' := by
  unfold Scope.asciiChar
  split
  · next h =>
    constructor
    · intro hc
      have h1 : 65 ≤ c.toNat ∧ c.toNat ≤ 90 := by
        simpa [Char.le_def, UInt32.le_iff_toNat_le] using h
      have h2 : (Char.ofNat (c.toNat + 32)).toNat = c.toNat + 32 := by
        have : (c.toNat + 32).isValidChar := .inl (by omega)
        rw [Char.ofNat, dif_pos this]; rfl
      rw [hc] at h2
      have : ('.' : Char).toNat = 46 := rfl
      omega
    · rintro rfl; exact absurd h (by decide)
  · exact Iff.rfl

theorem ascii_dot {v : List Char} : '.' ∈ Scope.ascii v ↔ '.' ∈ v := by
  simp [Scope.ascii, asciiChar_dot]

/-- With a namespace -/
theorem ns_split {v : List Char} {ns : String} {x : List Char} (h : Scope.ascii v = (ns ++ ".").toList ++ x)
    (hd : '.' ∉ ns.toList) : splitDot (Scope.ascii v) = some (ns.toList, x) := by
  rw [splitDot_some]
  refine ⟨?_, hd⟩
  rw [h]; simp

theorem ok_or {α : Type} {c : Prop} [Decidable c] {x y : Except Err α} {p : α} (h : (if c then x else y) = .ok p) :
    (c ∧ x = .ok p) ∨ (¬ c ∧ y = .ok p) := by
  split at h
  · next hc => exact .inl ⟨hc, h⟩
  · next hc => exact .inr ⟨hc, h⟩

theorem spaced_means {ns x : List Char} {y : Var N} (h : spaced hn ns x = .ok y) {g l v}
    (hv : Scope.ascii v = ns ++ '.' :: x) : NameMeans hn g l v y := by
  unfold spaced at h
  rcases ok_or h with ⟨_, h⟩ | ⟨hx, h⟩
  · cases h
  rcases ok_or h with ⟨h1, h⟩ | ⟨_, h⟩
  · cases h
    rcases h1 with rfl | rfl
    · exact .global hx (.inl hv)
    · exact .global hx (.inr hv)
  rcases ok_or h with ⟨rfl, h⟩ | ⟨_, h⟩
  · cases h; exact .env hx hv
  rcases ok_or h with ⟨rfl, h⟩ | ⟨_, h⟩
  · cases he : env? x with
    | none => rw [he] at h; cases h
    | some e =>
      rw [he] at h; cases h
      obtain ⟨w, hw, rfl⟩ := env_iff.mp he
      exact .envelope hw hv
  rcases ok_or h with ⟨rfl, h⟩ | ⟨_, h⟩
  · cases he : parseHeader hn x with
    | none => rw [he] at h; cases h
    | some e => rw [he] at h; cases h; exact .header hx hv he
  rcases ok_or h with ⟨h1, h2⟩ | ⟨_, h⟩
  · clear h; subst h1
    rcases ok_or h2 with ⟨h3, h4⟩ | ⟨_, h2⟩
    · cases h4; subst h3; exact .part (w := "body.text") (by simp [partNames]) hv
    rcases ok_or h2 with ⟨h3, h4⟩ | ⟨_, h2⟩
    · cases h4; subst h3; exact .part (w := "body.html") (by simp [partNames]) hv
    rcases ok_or h2 with ⟨h3, h4⟩ | ⟨_, h2⟩
    · cases h4; subst h3; exact .part (w := "body.to_text") (by simp [partNames]) hv
    rcases ok_or h2 with ⟨h3, h4⟩ | ⟨_, h2⟩
    · cases h4; subst h3; exact .part (w := "body.to_html") (by simp [partNames]) hv
    · cases h2
  rcases ok_or h with ⟨h1, h2⟩ | ⟨_, h⟩
  · clear h; subst h1
    rcases ok_or h2 with ⟨h3, h4⟩ | ⟨_, h2⟩
    · cases h4; subst h3; exact .part (w := "part.text") (by simp [partNames]) hv
    rcases ok_or h2 with ⟨h3, h4⟩ | ⟨_, h2⟩
    · cases h4; subst h3; exact .part (w := "part.raw") (by simp [partNames]) hv
    · cases h2
  · cases h

theorem parse_plain {st : Scope.St} {v : Scope.Name} (h : '.' ∉ v) : parseVariable hn st v true = .ok (plain st v) := by
  unfold parseVariable
  rw [splitDot_none.mpr (by rwa [ascii_dot])]
  rfl

theorem parse_spaced {st : Scope.St} {v : Scope.Name} {ns x} (h : splitDot (Scope.ascii v) = some (ns, x)) :
    parseVariable hn st v true = (spaced hn ns x).map some := by
  unfold parseVariable
  rw [h]
  rfl

theorem spaced_map {ns x : List Char} {r : Option (Var N)} (h : (spaced hn ns x).map some = .ok r) :
    ∃ y, r = some y ∧ spaced hn ns x = .ok y := by
  cases hs : spaced hn ns x with
  | error e => rw [hs] at h; cases h
  | ok y => rw [hs] at h; cases h; exact ⟨y, rfl, rfl⟩

/-- **C86** A name is read as what it means. -/
theorem variable_iff (st : Scope.St) (v : Scope.Name) (y : Var N) :
    parseVariable hn st v true = .ok (some y) ↔
      NameMeans hn (fun n => Scope.ascii n ∈ st.globals) (Scope.getLocal st) v y := by
  constructor
  · intro h
    cases hs : splitDot (Scope.ascii v) with
    | none =>
      have hd : '.' ∉ v := by rw [← ascii_dot]; exact splitDot_none.mp hs
      rw [parse_plain hd] at h
      simp only [plain, Scope.isGlobal, Except.ok.injEq] at h
      by_cases hg : Scope.ascii v ∈ st.globals
      · simp only [hg, decide_true, if_true] at h
        cases h; exact .plainGlobal hd hg
      · simp only [hg, decide_false, Bool.false_eq_true, if_false] at h
        obtain ⟨i, hl, rfl⟩ := Option.map_eq_some_iff.mp h
        exact .plainLocal hd hg hl
    | some r =>
      obtain ⟨ns, x⟩ := r
      rw [parse_spaced hs] at h
      obtain ⟨y', hy, h⟩ := spaced_map h
      cases hy
      exact spaced_means h (splitDot_some.mp hs).1
  · intro h
    cases h with
    | plainGlobal hd hg =>
      rw [parse_plain hd]
      simp [plain, Scope.isGlobal, hg]
    | plainLocal hd hg hl =>
      rw [parse_plain hd]
      simp [plain, Scope.isGlobal, hg, hl]
    | global hx hv =>
      rcases hv with hv | hv
      · rw [parse_spaced (ns_split (ns := "global") hv (by decide +kernel))]
        simp [spaced, hx, Except.map]
      · rw [parse_spaced (ns_split (ns := "t") hv (by decide +kernel))]
        simp [spaced, hx, Except.map]
    | env hx hv =>
      rw [parse_spaced (ns_split (ns := "env") hv (by decide +kernel))]
      simp [spaced, hx, Except.map]
    | @envelope w e hw hv =>
      rw [parse_spaced (ns_split (ns := "envelope") hv (by decide +kernel)), spaced, if_neg (env_ne hw), if_neg (by decide +kernel),
        if_neg (by decide +kernel), if_pos (by decide +kernel), env_iff.mpr ⟨w, hw, rfl⟩]
      rfl
    | header hx hv hh =>
      rw [parse_spaced (ns_split (ns := "header") hv (by decide +kernel)), spaced, if_neg hx, if_neg (by decide +kernel),
        if_neg (by decide +kernel), if_neg (by decide +kernel), if_pos (by decide +kernel), hh]
      rfl
    | part hw hv =>
      simp only [partNames, List.mem_cons, Prod.mk.injEq, List.not_mem_nil, or_false] at hw
      rcases hw with ⟨rfl, rfl⟩ | ⟨rfl, rfl⟩ | ⟨rfl, rfl⟩ | ⟨rfl, rfl⟩ | ⟨rfl, rfl⟩ | ⟨rfl, rfl⟩
      · rw [parse_spaced (ns_split (ns := "body") (x := "text".toList) hv (by decide +kernel))]; simp [spaced, Except.map]
      · rw [parse_spaced (ns_split (ns := "body") (x := "html".toList) hv (by decide +kernel))]; simp [spaced, Except.map]
      · rw [parse_spaced (ns_split (ns := "body") (x := "to_text".toList) hv (by decide +kernel))]; simp [spaced, Except.map]
      · rw [parse_spaced (ns_split (ns := "body") (x := "to_html".toList) hv (by decide +kernel))]; simp [spaced, Except.map]
      · rw [parse_spaced (ns_split (ns := "part") (x := "text".toList) hv (by decide +kernel))]; simp [spaced, Except.map]
      · rw [parse_spaced (ns_split (ns := "part") (x := "raw".toList) hv (by decide +kernel))]; simp [spaced, Except.map]

/-- **C86** It is no variable only if it is a name without a dot that stands for none. -/
theorem variable_none (st : Scope.St) (v : Scope.Name) :
    parseVariable hn st v true = .ok none ↔ '.' ∉ v ∧ Scope.ascii v ∉ st.globals ∧ Scope.getLocal st v = none := by
  by_cases hd : '.' ∈ v
  · cases hs : splitDot (Scope.ascii v) with
    | none => exact absurd hd (by rw [← ascii_dot]; exact splitDot_none.mp hs)
    | some r =>
      obtain ⟨ns, x⟩ := r
      rw [parse_spaced hs]
      simp only [hd, not_true_eq_false, false_and, iff_false]
      intro h
      obtain ⟨y, hy, _⟩ := spaced_map h
      cases hy
  · rw [parse_plain hd]
    simp only [plain, Scope.isGlobal, hd, not_false_eq_true, true_and]
    by_cases hg : Scope.ascii v ∈ st.globals
    · simp [hg]
    · simp [hg]

theorem getLocal_case {st : Scope.St} {v w : Scope.Name} (h : Scope.ascii v = Scope.ascii w) :
    Scope.getLocal st v = Scope.getLocal st w := by
  simp [Scope.getLocal, h]

/-- **C86** The case of the letters makes no difference, unless the name is that of a global variable without its
namespace. -/
theorem variable_case_partial (st : Scope.St) {v w : Scope.Name} (h : Scope.ascii v = Scope.ascii w) (ns : Bool)
    (hg : '.' ∈ v ∧ ns = true ∨ Scope.ascii v ∉ st.globals) :
    parseVariable hn st v ns = parseVariable hn st w ns := by
  have hp : Scope.ascii v ∉ st.globals → plain (N := N) st v = plain st w := by
    intro hg
    simp only [plain, Scope.isGlobal, hg, ← h, getLocal_case h]
    simp
  cases ns with
  | false =>
    rcases hg with ⟨_, hg⟩ | hg
    · cases hg
    · show Except.ok (plain st v) = Except.ok (plain st w)
      rw [hp hg]
  | true =>
    by_cases hd : '.' ∈ v
    · cases hs : splitDot (Scope.ascii v) with
      | none => exact absurd hd (by rw [← ascii_dot]; exact splitDot_none.mp hs)
      | some r => rw [parse_spaced hs, parse_spaced (by rw [← h]; exact hs)]
    · rcases hg with ⟨hg, _⟩ | hg
      · exact absurd hg hd
      · rw [parse_plain hd, parse_plain (by rw [← ascii_dot, ← h, ascii_dot]; exact hd), hp hg]

/-- A script with a global variable `foo` and a local variable `bar`. -/
def someSt : Scope.St := ⟨[("bar".toList, 0)], [], ["foo".toList], 1, 1, 0⟩

/-- Header names are what they are. -/
def asName (t : List Char) : Option (List Char) := if t = [] then none else some t

example : parseVariable asName someSt "Global.Foo".toList true = .ok (some (.global "foo".toList)) := by decide +kernel
example : parseVariable asName someSt "BAR".toList true = .ok (some (.«local» 0)) := by decide +kernel
example : parseVariable asName someSt "envelope.FROM".toList true = .ok (some (.envelope .«from»)) := by decide +kernel
example : parseVariable asName someSt "foo.bar".toList true = .error .invalidNamespace := by decide +kernel
example : parseVariable asName someSt "other".toList true = .ok none := by decide +kernel

/-- The claim without the exception of `variable_case_partial` is false: the global variable `foo` is written to as
`foo`, but `FOO` reads another one. -/
theorem global_case : ∃ (st : Scope.St) (v w : Scope.Name), Scope.ascii v = Scope.ascii w ∧
    parseVariable asName st v true ≠ parseVariable asName st w true :=
  ⟨someSt, "foo".toList, "FOO".toList, by decide +kernel, by decide +kernel⟩

/-! ### C87: header variables as written -/

/-- **C87** A header variable that is written as names or a star, an index, a part and an index, with white space
anywhere, is accepted if and only if the header names, the part and the numbers are, and then means what they mean. -/
theorem header_iff {w : Shape} (hw : w.Ok) {v : List Char} (hv : v.filter (fun c => c ∉ [' ', '\t', '\r', '\n']) = w.text)
    (h : HVar N) : parseHeader hn v = some h ↔ w.Means hn h := by
  rw [parse_filter, ← parse_shape hw, ← hv]
  have : (fun c : Char => !isWs c) = fun c => decide (c ∉ [' ', '\t', '\r', '\n']) := by
    funext c
    by_cases hc : isWs c = true
    · have := isWs_iff.mp hc
      simp only [hc, Bool.not_true, this, not_true_eq_false, decide_false]
    · have : c ∉ [' ', '\t', '\r', '\n'] := fun h => hc (isWs_iff.mpr h)
      simp only [Bool.eq_false_iff.mpr hc, Bool.not_false, this, not_false_eq_true, decide_true]
  rw [this]

/-- White space is ignored. -/
theorem header_white (v w : List Char)
    (h : v.filter (fun c => c ∉ [' ', '\t', '\r', '\n']) = w.filter (fun c => c ∉ [' ', '\t', '\r', '\n'])) :
    parseHeader hn v = parseHeader hn w := by
  have : (fun c : Char => !isWs c) = fun c => decide (c ∉ [' ', '\t', '\r', '\n']) := by
    funext c
    by_cases hc : isWs c = true
    · have := isWs_iff.mp hc
      simp only [hc, Bool.not_true, this, not_true_eq_false, decide_false]
    · have : c ∉ [' ', '\t', '\r', '\n'] := fun h => hc (isWs_iff.mpr h)
      simp only [Bool.eq_false_iff.mpr hc, Bool.not_false, this, not_false_eq_true, decide_true]
  rw [parse_filter, parse_filter w, this, h]

/-- `from:to[-2].addr.all[*]` -/
def someShape : Shape :=
  ⟨.names ["from".toList, "to".toList], some "-2".toList, some "addr.all".toList, some "*".toList⟩

example : someShape.Ok := by
  refine ⟨⟨by simp, ?_, by decide +kernel⟩, ?_, ?_, ?_, by simp [someShape]⟩ <;> simp only [Free, someShape] <;> decide +kernel

example : ("from : to [ -2 ].addr.all[*]".toList).filter (fun c => c ∉ [' ', '\t', '\r', '\n']) = someShape.text := by decide +kernel

example : parseHeader asName "from : to [ -2 ].addr.all[*]".toList =
    some ⟨["from".toList, "to".toList], .address .all, -2, 0⟩ := by decide +kernel

/-! The names are those written at the beginning. -/

theorem intercalate_concat {l : List (List Char)} {t : List Char} :
    [':'].intercalate (l ++ [t]) = (l.map (· ++ [':'])).flatten ++ t := by
  induction l with
  | nil => simp
  | cons a l ih =>
    have e : [':'].intercalate ((a :: l) ++ [t]) = a ++ ':' :: [':'].intercalate (l ++ [t]) := by
      cases l <;> simp [List.intercalate, List.intersperse]
    rw [e, ih]; simp

theorem forall2_nil {α β : Type} {P : α → β → Prop} {m : List β} (h : List.Forall₂ P [] m) : m = [] := by
  cases h; rfl

/-- The text of the names read so far. -/
def S.texts (s : S N) (ps : List (List Char)) : List (List Char) := if s.hdr = [] then ps else ps ++ [s.hdr]

/-- What is known in the loop after the text `u`. -/
def Inv (hn : List Char → Option N) (u : List Char) (s : S N) : Prop :=
  ∃ ps, List.Forall₂ (fun t n => hn t = some n) ps s.name ∧ (∀ p ∈ s.texts ps, p ≠ [] ∧ '[' ∉ p ∧ '.' ∉ p) ∧
    ((s.hasName = false ∧ s.wild = false ∧ s.st = .name ∧ u = (ps.map (· ++ [':'])).flatten ++ s.hdr) ∨
     ((s.hasName = true ∨ s.wild = true) ∧ (s.texts ps = [] ∨
        ∃ c rest, c ∈ ['[', '.', ':'] ∧ u = [':'].intercalate (s.texts ps) ++ c :: rest)))

theorem inv_later {u : List Char} {s s' : S N} {c : Char} (h : Inv hn u s) (hl : s.hasName = true ∨ s.wild = true)
    (h1 : s'.name = s.name) (h2 : s'.hdr = s.hdr) (h3 : s'.hasName = true ∨ s'.wild = true) : Inv hn (u ++ [c]) s' := by
  obtain ⟨ps, hf, hp, h⟩ := h
  refine ⟨ps, by rw [h1]; exact hf, by simpa only [S.texts, h2] using hp, .inr ⟨h3, ?_⟩⟩
  rcases h with ⟨h4, h5, _⟩ | ⟨_, h⟩
  · rw [h4, h5] at hl; simp at hl
  · rcases h with h | ⟨d, rest, hd, hu⟩
    · left; simpa only [S.texts, h2] using h
    · right
      refine ⟨d, rest ++ [c], hd, ?_⟩
      simp only [S.texts, h2] at hu ⊢
      rw [hu]; simp

theorem inv_end {u : List Char} {s s' : S N} {c : Char} (h : Inv hn u s) (hc : c = '[' ∨ c = '.')
    (h1 : s'.name = s.name) (h2 : s'.hdr = s.hdr) (h3 : s'.hasName = true) : Inv hn (u ++ [c]) s' := by
  by_cases hl : s.hasName = true ∨ s.wild = true
  · exact inv_later h hl h1 h2 (.inl h3)
  · obtain ⟨ps, hf, hp, h⟩ := h
    refine ⟨ps, by rw [h1]; exact hf, by simpa only [S.texts, h2] using hp, .inr ⟨.inl h3, ?_⟩⟩
    rcases h with ⟨_, _, _, hu⟩ | ⟨h, _⟩
    · simp only [S.texts, h2]
      by_cases h0 : s.hdr = []
      · rw [if_pos h0]
        rcases List.eq_nil_or_concat ps with rfl | ⟨qs, q, rfl⟩
        · exact .inl rfl
        · right
          refine ⟨':', [c], by simp, ?_⟩
          rw [hu, h0, List.concat_eq_append, intercalate_concat]
          simp
      · rw [if_neg h0]
        right
        refine ⟨c, [], by rcases hc with rfl | rfl <;> simp, ?_⟩
        rw [hu, intercalate_concat]
    · exact absurd h hl

theorem inv_step {u : List Char} {s s' : S N} {c : Char} (h : Inv hn u s) (hc : isWs c = false) (hs : step hn s c = some s') :
    Inv hn (u ++ [c]) s' := by
  have inner : s.st ≠ .name → s.hasName = true ∨ s.wild = true := by
    intro hst
    obtain ⟨ps, _, _, h⟩ := h
    rcases h with ⟨_, _, h, _⟩ | ⟨h, _⟩
    · exact absurd h hst
    · exact h
  have keep : ∀ t : S N, s.st ≠ .name → t.name = s.name → t.hdr = s.hdr → t.hasName = s.hasName → t.wild = s.wild →
      Inv hn (u ++ [c]) t := by
    intro t hst h1 h2 h3 h4
    exact inv_later h (inner hst) h1 h2 (by rw [h3, h4]; exact inner hst)
  unfold step at hs
  cases hst : s.st with
  | index =>
    rw [hst] at hs
    simp only [hc, Bool.false_eq_true, if_false] at hs
    split at hs <;> cases hs <;> exact keep _ (by rw [hst]; simp) rfl rfl rfl rfl
  | part =>
    rw [hst] at hs
    simp only [hc, Bool.false_eq_true, if_false] at hs
    split at hs <;> cases hs <;> exact keep _ (by rw [hst]; simp) rfl rfl rfl rfl
  | partIndex =>
    rw [hst] at hs
    simp only [hc, Bool.false_eq_true, if_false] at hs
    split at hs <;> cases hs <;> exact keep _ (by rw [hst]; simp) rfl rfl rfl rfl
  | name =>
    rw [hst] at hs
    simp only [hc, Bool.false_eq_true, if_false] at hs
    split at hs
    · next h1 =>
      split at hs
      · cases hs; exact inv_end h (.inl h1) rfl rfl rfl
      · split at hs
        · cases hs; exact inv_end h (.inl h1) rfl rfl rfl
        · cases hs
    next hb =>
    split at hs
    · next h1 => cases hs; exact inv_end h (.inr h1) rfl rfl rfl
    next hdot =>
    split at hs
    · next h1 =>
      cases hs
      obtain ⟨ps, hf, hp, h⟩ := h
      have : ps = [] := by
        rw [h1.2.2.2] at hf; cases hf; rfl
      subst this
      refine ⟨[], hf, by simpa only [S.texts] using hp, .inr ⟨.inr rfl, .inl ?_⟩⟩
      simp [S.texts, h1.2.2.1]
    split at hs
    · next h1 =>
      obtain ⟨n, hn', rfl⟩ := Option.map_eq_some_iff.mp hs
      obtain ⟨ps, hf, hp, h⟩ := h
      have e1 : s.texts ps = ps ++ [s.hdr] := by simp [S.texts, h1.2.1]
      refine ⟨ps ++ [s.hdr], forall2_concat.mpr ⟨_, n, rfl, hf, hn'⟩, ?_, ?_⟩
      · rw [e1] at hp
        exact hp
      · rcases h with ⟨h2, h3, _, hu⟩ | ⟨h2, h⟩
        · left
          refine ⟨h2, h3, rfl, ?_⟩
          rw [hu, h1.1]; simp
        · right
          refine ⟨h2, ?_⟩
          simp only [S.texts, if_true]
          rcases h with h | ⟨d, rest, hd, hu⟩
          · rw [e1] at h; simp at h
          · right
            refine ⟨d, rest ++ [c], hd, ?_⟩
            rw [hu, e1]; simp
    split at hs
    · next h1 =>
      cases hs
      obtain ⟨ps, hf, hp, h⟩ := h
      rcases h with ⟨h2, h3, _, hu⟩ | ⟨h2, _⟩
      · refine ⟨ps, hf, ?_, .inl ⟨h2, h3, rfl, ?_⟩⟩
        · intro p hm
          simp only [S.texts, List.append_eq_nil_iff, List.cons_ne_self, and_false, if_false, List.mem_append, List.mem_singleton] at hm
          have hp' : ∀ q ∈ ps, q ≠ [] ∧ '[' ∉ q ∧ '.' ∉ q := by
            intro q hq
            refine hp q ?_
            unfold S.texts
            split
            · exact hq
            · simp [hq]
          have hmem : ∀ {d}, d ∈ s.hdr → s.hdr ∈ s.texts ps := by
            intro d hd
            unfold S.texts
            rw [if_neg (by intro h0; rw [h0] at hd; cases hd)]
            simp
          rcases hm with hm | rfl
          · exact hp' p hm
          · refine ⟨by simp, ?_, ?_⟩
            · intro hm
              simp only [List.mem_append, List.mem_singleton] at hm
              rcases hm with hm | hm
              · exact (hp s.hdr (hmem hm)).2.1 hm
              · exact hb hm.symm
            · intro hm
              simp only [List.mem_append, List.mem_singleton] at hm
              rcases hm with hm | hm
              · exact (hp s.hdr (hmem hm)).2.2 hm
              · exact hdot hm.symm
        · rw [hu]; simp
      · exfalso
        rcases h2 with h2 | h2 <;> simp [h2] at h1
    · cases hs

theorem inv_run {u v : List Char} {s s' : S N} (h : Inv hn u s) (hv : ∀ c ∈ v, isWs c = false) (hr : run hn s v = some s') :
    Inv hn (u ++ v) s' := by
  induction v generalizing u s with
  | nil => cases hr; simpa using h
  | cons c v ih =>
    obtain ⟨t, ht, hr⟩ := Option.bind_eq_some_iff.mp hr
    have := ih (inv_step h (hv c (by simp)) ht) (fun d hd => hv d (by simp [hd])) hr
    simpa using this

/-- **C87** Whatever is accepted, the headers are those with the names written at the beginning, with colons between
them, up to a bracket, a dot or another colon. -/
theorem header_names {v : List Char} {h : HVar N} (hp : parseHeader hn v = some h) (h0 : h.name ≠ []) :
    ∃ ps rest, List.Forall₂ (fun t n => hn t = some n) ps h.name ∧ (∀ p ∈ ps, p ≠ [] ∧ '[' ∉ p ∧ '.' ∉ p) ∧
      v.filter (fun c => c ∉ [' ', '\t', '\r', '\n']) = [':'].intercalate ps ++ rest ∧
      (rest = [] ∨ ∃ c r, rest = c :: r ∧ c ∈ ['[', '.', ':']) := by
  rw [parse_filter] at hp
  have he : (fun c : Char => !isWs c) = fun c => decide (c ∉ [' ', '\t', '\r', '\n']) := by
    funext c
    by_cases hc : isWs c = true
    · have := isWs_iff.mp hc
      simp only [hc, Bool.not_true, this, not_true_eq_false, decide_false]
    · have : c ∉ [' ', '\t', '\r', '\n'] := fun h => hc (isWs_iff.mpr h)
      simp only [Bool.eq_false_iff.mpr hc, Bool.not_false, this, not_false_eq_true, decide_true]
  rw [← he]
  have hws : ∀ c ∈ v.filter (fun c => !isWs c), isWs c = false := by
    intro c hc
    simpa using (List.mem_filter.mp hc).2
  generalize v.filter (fun c => !isWs c) = u at hp hws
  unfold parseHeader at hp
  obtain ⟨s, hr, hf⟩ := Option.bind_eq_some_iff.mp hp
  have hi : Inv hn [] (S.init N) := ⟨[], .nil, by simp [S.texts, S.init], .inl ⟨rfl, rfl, rfl, rfl⟩⟩
  have := inv_run hi hws hr
  rw [List.nil_append] at this
  obtain ⟨ps, hps, hok, hu⟩ := this
  obtain ⟨hname, _⟩ := finish_iff.mp hf
  have hall : List.Forall₂ (fun t n => hn t = some n) (s.texts ps) h.name := by
    unfold S.texts
    rcases hname with ⟨h1, h2⟩ | ⟨h1, n, h2, h3⟩
    · rw [if_pos h1, h2]; exact hps
    · rw [if_neg h1, h3]; exact forall2_concat.mpr ⟨_, n, rfl, hps, h2⟩
  rcases hu with ⟨_, _, _, hu⟩ | ⟨_, hu⟩
  · by_cases hh : s.hdr = []
    · have e : s.texts ps = ps := by simp [S.texts, hh]
      rw [e] at hall hok
      rcases List.eq_nil_or_concat ps with rfl | ⟨qs, q, rfl⟩
      · exact absurd (forall2_nil hall) h0
      · refine ⟨_, [':'], hall, hok, ?_, .inr ⟨':', [], rfl, by simp⟩⟩
        rw [hu, hh, List.concat_eq_append, intercalate_concat]; simp
    · have e : s.texts ps = ps ++ [s.hdr] := by simp [S.texts, hh]
      rw [e] at hall hok
      exact ⟨_, [], hall, hok, by rw [hu, intercalate_concat]; simp, .inl rfl⟩
  · rcases hu with hu | ⟨c, rest, hc, hu⟩
    · rw [hu] at hall; exact absurd (forall2_nil hall) h0
    · exact ⟨_, _, hall, hok, hu, .inr ⟨c, rest, rfl, hc⟩⟩

example : parseHeader asName "from : to [ 1".toList = some ⟨["from".toList, "to".toList], .text, 1, -1⟩ := by decide +kernel

/-- **C87** Every part of a header has a name, other than `via` of a `Received` header and attributes without name.
The full claim would hold for `via` too (`via_unnamed`). -/
theorem part_named_partial (p : HPart) (h1 : p ≠ .received .via) (h2 : p ≠ .contentType (.attribute [])) :
    ∃ t, PartMeans t p := by
  have pl : ∀ w, (w, p) ∈ plainParts → ∃ t, PartMeans t p := fun w h => ⟨_, .plain h⟩
  cases p with
  | text => exact pl "text" (by simp [plainParts])
  | date => exact pl "date" (by simp [plainParts])
  | id => exact pl "id" (by simp [plainParts])
  | address p =>
    have : ∃ w, (w, p) ∈ addrNames := by
      cases p
      · exact ⟨"all", by simp [addrNames]⟩
      · exact ⟨"addr.local", by simp [addrNames]⟩
      · exact ⟨"addr.domain", by simp [addrNames]⟩
      · exact ⟨"addr.user", by simp [addrNames]⟩
      · exact ⟨"addr.detail", by simp [addrNames]⟩
      · exact ⟨"name", by simp [addrNames]⟩
    obtain ⟨w, hw⟩ := this
    exact ⟨_, .addrSub hw⟩
  | contentType p =>
    cases p with
    | type => exact pl "type" (by simp [plainParts])
    | subtype => exact pl "subtype" (by simp [plainParts])
    | «attribute» n => exact ⟨_, .attr (n := n) (by rintro rfl; exact h2 rfl)⟩
  | received p =>
    have : p ≠ .via → ∃ w, (w, p) ∈ rcvdNames := by
      intro hp
      cases p with
      | «from» h =>
        cases h
        · exact ⟨"from.name", by simp [rcvdNames]⟩
        · exact ⟨"from.ip", by simp [rcvdNames]⟩
        · exact ⟨"from", by simp [rcvdNames]⟩
      | by_ h =>
        cases h
        · exact ⟨"by.name", by simp [rcvdNames]⟩
        · exact ⟨"by.ip", by simp [rcvdNames]⟩
        · exact ⟨"by", by simp [rcvdNames]⟩
      | fromIp => exact ⟨"ip", by simp [rcvdNames]⟩
      | fromIpRev => exact ⟨"iprev", by simp [rcvdNames]⟩
      | for_ => exact ⟨"for", by simp [rcvdNames]⟩
      | with_ => exact ⟨"with", by simp [rcvdNames]⟩
      | tlsVersion => exact ⟨"tls", by simp [rcvdNames]⟩
      | tlsCipher => exact ⟨"cipher", by simp [rcvdNames]⟩
      | id => exact ⟨"id", by simp [rcvdNames]⟩
      | ident => exact ⟨"ident", by simp [rcvdNames]⟩
      | via => exact absurd rfl hp
      | date => exact ⟨"date", by simp [rcvdNames]⟩
      | dateRaw => exact ⟨"date.raw", by simp [rcvdNames]⟩
    obtain ⟨w, hw⟩ := this (by rintro rfl; exact h1 rfl)
    exact ⟨_, .rcvdSub hw⟩
  | raw => exact pl "raw" (by simp [plainParts])
  | rawName => exact pl "raw_name" (by simp [plainParts])
  | «exists» => exact pl "exists" (by simp [plainParts])

/-- A part is not read as two. -/
theorem part_unique {t : List Char} {p q : HPart} (hp : PartMeans t p) (hq : PartMeans t q) : p = q := by
  rw [← part_iff] at hp hq
  rw [hp] at hq
  exact Option.some.inj hq

/-- There is no way to write `via`. -/
theorem via_unnamed : ¬ ∃ t, PartMeans t (.received .via) := by
  rintro ⟨t, h⟩
  cases h with
  | plain h => simp [plainParts] at h
  | more h => simp [plainParts] at h
  | rcvdSub h => simp [rcvdNames] at h

/-- The parts of an address are found only after `addr` has been written twice. -/
theorem addr_twice : parseHeader asName "from.addr.domain".toList = none ∧
    parseHeader asName "from.addr.addr.domain".toList = some ⟨["from".toList], .address .domain, -1, -1⟩ := by
  decide +kernel

/-- What is no header variable as written is not always rejected: third brackets are added to the second, brackets
may divide a part, and the last one may be missing. -/
theorem header_loose : parseHeader asName "from[1][2][3]".toList = some ⟨["from".toList], .text, 1, 23⟩ ∧
    parseHeader asName "from.na[2].me".toList = some ⟨["from".toList], .address .name, -1, 2⟩ ∧
    parseHeader asName "from[1".toList = some ⟨["from".toList], .text, 1, -1⟩ ∧
    parseHeader asName "from.name[1][2]".toList = some ⟨["from".toList], .address .name, 2, 1⟩ := by
  decide +kernel

end Sieve.Hvar
