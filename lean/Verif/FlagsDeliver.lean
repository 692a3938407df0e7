import Verif.FlagsProps

/-!
# C104: messages are delivered with the flags of the script

`setflag`, `addflag` and `removeflag` on the internal variable, and the flags of `keep` and `fileinto`
(`src/runtime/actions/action_flags.rs:104-139`, `src/runtime/actions/action_fileinto.rs:11-40`,
`src/runtime/context.rs:197-210`, `416-427`, `452-459`).  A script is taken as the sequence of these commands in the order
of their execution; control flow, message ids and other actions are in `VmModel`.
-/

namespace Sieve.Flags

open Sieve.SetVar

/-- The commands; `strings` are the values of the list of flags, which is empty if there is none. -/
inductive Cmd where
  | edit (a : Action) (strings : List (List Char))
  | keep (strings : List (List Char))
  | fileInto (copy : Bool) (strings : List (List Char))
  | discard

/-- `vars_global["__flags"]`; `final_event`: the flags of `Event::Keep`, or none for `Discard` and nothing; the flags of
`Event::FileInto` so far. -/
structure Deliver where
  text : List Char
  final : Option (List (List Char))
  filed : List (List (List Char))

section
variable (lower : List Char → List Char) (ws : Char → Bool) (max : Nat)

/-- `get_local_or_global_flags`, `src/runtime/actions/action_flags.rs:133-139` -/
def localOrGlobal (text : List Char) (strings : List (List Char)) : List (List Char) :=
  if strings = [] then flagsOf text else tokens ws strings

def Deliver.step (st : Deliver) : Cmd → Deliver
  | .edit a strings => { st with text := (exec lower ws max a st.text strings).text }
  | .keep strings => { st with final := some (localOrGlobal ws st.text strings) }
  | .fileInto copy strings =>
    let final :=
      match st.final with
      | some (_ :: _) => st.final
      | _ => if copy then st.final else none
    { st with final := final, filed := st.filed ++ [localOrGlobal ws st.text strings] }
  | .discard => { st with final := none }

/-- `Context::new` -/
def Deliver.new : Deliver := ⟨[], some [], []⟩

def Deliver.run (cmds : List Cmd) : Deliver := cmds.foldl (Deliver.step lower ws max) .new

/-- The flags with which the message is kept at the end, `context.rs:416-427` and `452-459`. -/
def Deliver.kept (st : Deliver) : Option (List (List Char)) :=
  st.final.map fun fl => if fl = [] ∧ flagsOf st.text ≠ [] then flagsOf st.text else fl

/-! ## Specification -/

/-- The flags of the internal variable after the commands, the last one first, ignoring case. -/
def Before : List Cmd → List Char → Prop
  | [], _ => False
  | .edit .set ss :: _, f => ∃ t ∈ tokens ws ss, lower t = lower f
  | .edit .add ss :: cs, f => Before cs f ∨ ∃ t ∈ tokens ws ss, lower t = lower f
  | .edit .remove ss :: cs, f => Before cs f ∧ ∀ t ∈ tokens ws ss, lower t ≠ lower f
  | _ :: cs, f => Before cs f

/-- The flags of the internal variable after a sequence of commands. -/
def Internal (cmds : List Cmd) : List Char → Prop := Before lower ws cmds.reverse

/-- A list of flags without repetitions that has exactly the flags of a set. -/
def Means (fl : List (List Char)) (s : List Char → Prop) : Prop :=
  Distinct lower fl ∧ ∀ f, (∃ g ∈ fl, lower g = lower f) ↔ s f

/-- Flags are words, and all of them fit into a variable. -/
def Fine (cmds : List Cmd) : Prop :=
  (∀ a ss, Cmd.edit a ss ∈ cmds → CleanList ws ss) ∧
    (cmds.map fun c => match c with | .edit _ ss => cost (tokens ws ss) | _ => 0).sum ≤ max

/-- The message is kept after the commands, the last one first.  `filed` says whether the message is filed without
`:copy` later: then a `keep` counts only if it has flags. -/
def Stays : List Cmd → Bool → Prop
  | [], filed => filed = false
  | .keep ss :: cs, filed => filed = false ∨ tokens ws ss ≠ [] ∨ ss = [] ∧ ∃ f, Before lower ws cs f
  | .discard :: _, _ => False
  | .fileInto false _ :: cs, _ => Stays cs true
  | _ :: cs, filed => Stays cs filed

/-! ## Proofs -/

variable {lower ws max}

/-- What holds for the text of the variable. -/
structure Good (lower : List Char → List Char) (ws : Char → Bool) (text : List Char) (cs : List Cmd) : Prop where
  distinct : Distinct lower (flagsOf text)
  words : ∀ f ∈ flagsOf text, f ≠ []
  flags : ∀ f, (∃ g ∈ flagsOf text, lower g = lower f) ↔ Before lower ws cs f
  size : byteLen text ≤ (cs.map fun c => match c with | .edit _ ss => cost (tokens ws ss) | _ => 0).sum

theorem removeFlags_distinct {old : List Char} {toks : List (List Char)} (hd : Distinct lower (flagsOf old))
    (hw : ∀ f ∈ flagsOf old, f ≠ []) :
    Distinct lower (flagsOf (removeFlags lower old toks)) ∧ (∀ f ∈ flagsOf (removeFlags lower old toks), f ≠ []) ∧
      byteLen (removeFlags lower old toks) ≤ byteLen old := by
  have hds : Distinct lower (splitSp old) := by
    unfold flagsOf at hd
    split at hd
    · rename_i h; subst h; simp [splitSp, Distinct]
    · exact hd
  have key : ∀ (toks fl : List (List Char)), Distinct lower fl →
      ∃ fl', toks.foldl (removeTok lower) (fl, fl.map lower) = (fl', fl'.map lower) ∧ Distinct lower fl' ∧
        (∀ f ∈ fl', f ∈ fl) ∧ cost fl' ≤ cost fl := by
    intro toks
    induction toks with
    | nil => intro fl h; exact ⟨fl, rfl, h, fun _ h => h, Nat.le_refl _⟩
    | cons t ts ih =>
      intro fl h
      obtain ⟨fl1, h1, h2, h3, h4⟩ := removeTok_spec lower fl t h
      obtain ⟨fl2, h5, h6, h7, h8⟩ := ih fl1 h2
      exact ⟨fl2, by rw [List.foldl_cons, h1, h5], h6, fun f hf => ((h3 f).1 (h7 f hf)).1, by omega⟩
  obtain ⟨fl', h1, h2, h3, h4⟩ := key toks (splitSp old) hds
  have hr : removeFlags lower old toks = joinSp fl' := by unfold removeFlags; rw [h1]
  rw [hr]
  have hlen : byteLen (joinSp fl') ≤ byteLen old := by
    by_cases hnil : fl' = []
    · subst hnil; simp [joinSp]
    · have h4' := byteLen_joinSp hnil
      have h5 := byteLen_joinSp (splitSp_ne_nil old)
      rw [joinSp_splitSp] at h5
      omega
  by_cases hnil : fl' = []
  · subst hnil
    exact ⟨by simp [joinSp, flagsOf, Distinct], by simp [joinSp, flagsOf], hlen⟩
  · have hs := splitSp_joinSp hnil fun f hf => splitSp_no_space old f (h3 f hf)
    unfold flagsOf
    split
    · exact ⟨by simp [Distinct], by simp, hlen⟩
    · rename_i hne
      rw [hs]
      refine ⟨h2, fun f hf => ?_, hlen⟩
      by_cases ho : old = []
      · exfalso
        subst ho
        have hf' : ∀ g ∈ fl', g = [] := fun g hg => by simpa [splitSp] using h3 g hg
        have : fl' = [[]] := by
          cases fl' with
          | nil => exact absurd rfl hnil
          | cons a l =>
            have ha := hf' a (by simp)
            subst ha
            cases l with
            | nil => rfl
            | cons b l =>
              have hb := hf' b (by simp)
              subst hb
              simp [Distinct] at h2
        rw [this] at hne
        exact hne rfl
      · have := h3 f hf
        apply hw
        unfold flagsOf
        rw [if_neg ho]
        exact this

theorem step_good (hlow : ∀ t, t ≠ [] → lower t ≠ lower []) {st : Deliver} {cs : List Cmd} (h : Good lower ws st.text cs)
    (c : Cmd) (hf : Fine ws max (c :: cs)) : Good lower ws (st.step lower ws max c).text (c :: cs) := by
  obtain ⟨hc, hs⟩ := hf
  obtain ⟨h1, h2, h3, h4⟩ := h
  cases c with
  | keep ss => exact ⟨h1, h2, h3, by simpa [Deliver.step] using h4⟩
  | fileInto copy ss => exact ⟨h1, h2, h3, by simpa [Deliver.step] using h4⟩
  | discard => exact ⟨h1, h2, h3, by simpa [Deliver.step] using h4⟩
  | edit a ss =>
    have hcl := hc a ss (by simp)
    have ht := tokens_clean hcl
    simp only [List.map_cons, List.sum_cons] at hs
    simp only [Deliver.step]
    cases a with
    | set =>
      have hlen := addTok_len lower (tokens ws ss) ([], [])
      simp only [byteLen_nil, Nat.zero_add] at hlen
      have e : exec lower ws max .set st.text ss = .str (setFlags lower (tokens ws ss)) :=
        stored_fits (show byteLen (setFlags lower (tokens ws ss)) ≤ max from le_trans hlen (by omega))
      have hfold := fold_addTok lower hlow _ ht ([], []) [] (by simp) (by simp [flagsOf])
      have e2 : flagsOf (setFlags lower (tokens ws ss)) = (tokens ws ss).foldl (addAbs lower) [] := by
        unfold setFlags; rw [hfold]; rfl
      obtain ⟨_, g2, g3, g4⟩ := addAbs_fold lower (tokens ws ss) []
      rw [e]
      simp only [Variable.text]
      refine ⟨by rw [e2]; exact g2 (by simp), ?_, ?_, ?_⟩
      · intro f hf
        rw [e2] at hf
        rcases g3 f hf with h | h
        · simp at h
        · exact (ht f h).1
      · intro f
        rw [e2, Before]
        constructor
        · rintro ⟨g, hg, e⟩
          rcases g3 g hg with h | h
          · simp at h
          · exact ⟨g, h, e⟩
        · rintro ⟨t, h, e⟩
          obtain ⟨g, hg, e'⟩ := List.mem_map.1 (g4 t h)
          exact ⟨g, hg, e'.trans e⟩
      · simp only [List.map_cons, List.sum_cons]
        exact le_trans hlen (by omega)
    | add =>
      have hlen := addTok_len lower (tokens ws ss) (st.text, (splitSp st.text).map lower)
      have e : exec lower ws max .add st.text ss = .str (addFlags lower st.text (tokens ws ss)) :=
        stored_fits (show byteLen (addFlags lower st.text (tokens ws ss)) ≤ max from
          le_trans (by unfold addFlags; exact hlen) (by simp only; omega))
      have e2 := addFlags_flags lower hlow st.text _ ht
      obtain ⟨g1, g2, g3, g4⟩ := addAbs_fold lower (tokens ws ss) (flagsOf st.text)
      rw [e]
      simp only [Variable.text]
      refine ⟨by rw [e2]; exact g2 h1, ?_, ?_, ?_⟩
      · intro f hf
        rw [e2] at hf
        rcases g3 f hf with h | h
        · exact h2 f h
        · exact (ht f h).1
      · intro f
        rw [e2, Before, ← h3 f]
        constructor
        · rintro ⟨g, hg, e⟩
          rcases g3 g hg with h | h
          · exact .inl ⟨g, h, e⟩
          · exact .inr ⟨g, h, e⟩
        · rintro (⟨g, hg, e⟩ | ⟨t, h, e⟩)
          · exact ⟨g, g1.subset hg, e⟩
          · obtain ⟨g, hg, e'⟩ := List.mem_map.1 (g4 t h)
            exact ⟨g, hg, e'.trans e⟩
      · simp only [List.map_cons, List.sum_cons]
        unfold addFlags
        exact le_trans hlen (by simp only; omega)
    | remove =>
      obtain ⟨g1, g2, g3⟩ := removeFlags_distinct (toks := tokens ws ss) h1 h2
      have hfit : byteLen st.text ≤ max := by omega
      have e : exec lower ws max .remove st.text ss = .str (removeFlags lower st.text (tokens ws ss)) :=
        stored_fits (show byteLen (removeFlags lower st.text (tokens ws ss)) ≤ max from le_trans g3 hfit)
      have hmem := removeflag_exact lower ws max st.text ss h1 hfit
      rw [e] at hmem ⊢
      simp only [Variable.text]
      refine ⟨g1, g2, ?_, ?_⟩
      · intro f
        rw [Before, ← h3 f]
        constructor
        · rintro ⟨g, hg, e⟩
          obtain ⟨m1, m2⟩ := (hmem g (g2 g hg)).1 hg
          exact ⟨⟨g, m1, e⟩, fun t ht => by rw [← e]; exact m2 t ht⟩
        · rintro ⟨⟨g, hg, e⟩, m2⟩
          exact ⟨g, (hmem g (h2 g hg)).2 ⟨hg, fun t ht => by rw [e]; exact m2 t ht⟩, e⟩
      · simp only [List.map_cons, List.sum_cons]
        omega

theorem run_good (hlow : ∀ t, t ≠ [] → lower t ≠ lower []) (cmds : List Cmd) (hf : Fine ws max cmds) :
    Good lower ws (Deliver.run lower ws max cmds).text cmds.reverse := by
  have key : ∀ (rev : List Cmd), Fine ws max rev → Good lower ws (Deliver.run lower ws max rev.reverse).text rev := by
    intro rev
    induction rev with
    | nil =>
      intro _
      refine ⟨by simp [Deliver.run, Deliver.new, flagsOf, Distinct], by simp [Deliver.run, Deliver.new, flagsOf], ?_, by simp [Deliver.run, Deliver.new]⟩
      intro f
      simp [Deliver.run, Deliver.new, flagsOf, Before]
    | cons c rev ih =>
      intro hf
      have hf' : Fine ws max rev := by
        refine ⟨fun a ss h => hf.1 a ss (by simp [h]), ?_⟩
        have := hf.2
        simp only [List.map_cons, List.sum_cons] at this
        omega
      have h := step_good hlow (ih hf') c hf
      have e : Deliver.run lower ws max (c :: rev).reverse = (Deliver.run lower ws max rev.reverse).step lower ws max c := by
        simp [Deliver.run, List.foldl_append]
      rw [e]
      exact h
  have := key cmds.reverse ⟨fun a ss h => hf.1 a ss (by simpa using h), by
    rw [List.map_reverse, List.sum_reverse]; exact hf.2⟩
  rwa [List.reverse_reverse] at this

/-- The internal variable after any sequence of commands. -/
theorem internal_means (hlow : ∀ t, t ≠ [] → lower t ≠ lower []) (cmds : List Cmd) (hf : Fine ws max cmds) :
    Means lower (flagsOf (Deliver.run lower ws max cmds).text) (Internal lower ws cmds) := by
  have h := run_good hlow cmds hf
  exact ⟨h.distinct, h.flags⟩

theorem run_snoc (cmds : List Cmd) (c : Cmd) :
    Deliver.run lower ws max (cmds ++ [c]) = (Deliver.run lower ws max cmds).step lower ws max c := by
  simp [Deliver.run, List.foldl_append]

/-- **C104 (1).** `fileinto` without `:flags` files the message with the flags of the internal variable at this time, each
of them once; with `:flags` with those given. -/
theorem fileinto_flags (hlow : ∀ t, t ≠ [] → lower t ≠ lower []) (cmds : List Cmd) (hf : Fine ws max cmds) (copy : Bool)
    (ss : List (List Char)) :
    ∃ fl, (Deliver.run lower ws max (cmds ++ [.fileInto copy ss])).filed = (Deliver.run lower ws max cmds).filed ++ [fl] ∧
      (ss = [] → Means lower fl (Internal lower ws cmds)) ∧ (ss ≠ [] → fl = tokens ws ss) := by
  rw [run_snoc]
  refine ⟨localOrGlobal ws (Deliver.run lower ws max cmds).text ss, by simp only [Deliver.step], ?_, ?_⟩
  · rintro rfl
    exact internal_means hlow cmds hf
  · intro h
    simp [localOrGlobal, h]

theorem run_fine {rev : List Cmd} {c : Cmd} (h : Fine ws max (c :: rev).reverse) : Fine ws max rev.reverse := by
  refine ⟨fun a ss hm => h.1 a ss (by simpa using .inl (by simpa using hm)), ?_⟩
  have := h.2
  simp at this ⊢
  omega

/-- **C104 (4).** Whether the message is kept at the end. -/
theorem kept_iff (hlow : ∀ t, t ≠ [] → lower t ≠ lower []) (cmds : List Cmd) (hf : Fine ws max cmds) :
    (Deliver.run lower ws max cmds).kept ≠ none ↔ Stays lower ws cmds.reverse false := by
  have key : ∀ (rev : List Cmd) (b : Bool), Fine ws max rev.reverse → (Stays lower ws rev b ↔
      (Deliver.run lower ws max rev.reverse).final ≠ none ∧
      (b = true → (Deliver.run lower ws max rev.reverse).final ≠ some [])) := by
    intro rev
    induction rev with
    | nil => intro b _; cases b <;> simp [Stays, Deliver.run, Deliver.new]
    | cons c rev ih =>
      intro b hf
      have hf' := run_fine hf
      rw [List.reverse_cons, run_snoc]
      cases c with
      | edit a ss =>
        rw [Stays, ih b hf']
        · rfl
        all_goals simp
      | discard => simp [Stays, Deliver.step]
      | keep ss =>
        have hm := internal_means hlow _ hf'
        rw [Stays]
        cases b with
        | false => simp [Deliver.step]
        | true =>
          simp only [Deliver.step, ne_eq, reduceCtorEq, not_false_eq_true, Option.some.injEq, true_and, false_or, forall_const,
            localOrGlobal, Bool.true_eq_false]
          by_cases hs : ss = []
          · subst hs
            rw [if_pos rfl]
            constructor
            · rintro (h | ⟨_, f, h⟩)
              · exact absurd rfl h
              · intro e
                have h' : Internal lower ws rev.reverse f := by simpa [Internal] using h
                obtain ⟨g, hg, _⟩ := (hm.2 f).2 h'
                rw [e] at hg
                cases hg
            · intro h
              obtain ⟨g, hg⟩ := List.exists_mem_of_ne_nil _ h
              have := (hm.2 g).1 ⟨g, hg, rfl⟩
              exact .inr ⟨rfl, g, by simpa [Internal] using this⟩
          · rw [if_neg hs]
            simp [hs]
      | fileInto copy ss =>
        cases copy with
        | true =>
          rw [Stays, ih b hf']
          · have e : ((Deliver.run lower ws max rev.reverse).step lower ws max (.fileInto true ss)).final
                = (Deliver.run lower ws max rev.reverse).final := by
              simp only [Deliver.step, if_true]
              split <;> rfl
            rw [e]
          all_goals simp
        | false =>
          rw [Stays, ih true hf']
          generalize Deliver.run lower ws max rev.reverse = st
          rcases hst : st.final with _ | _ | ⟨f, fl⟩ <;> simp [Deliver.step, hst]
  have := key cmds.reverse false (by simpa using hf)
  rw [this, List.reverse_reverse]
  simp [Deliver.kept]

/-- Commands that leave the message where it is: they change flags or file a copy. -/
def Quiet (cmds : List Cmd) : Prop := ∀ c ∈ cmds, (∃ a ss, c = .edit a ss) ∨ ∃ ss, c = .fileInto true ss

theorem quiet_final {cmds post : List Cmd} (h : Quiet post) :
    (Deliver.run lower ws max (cmds ++ post)).final = (Deliver.run lower ws max cmds).final := by
  unfold Deliver.run
  rw [List.foldl_append]
  generalize cmds.foldl (Deliver.step lower ws max) .new = st
  induction post generalizing st with
  | nil => rfl
  | cons c post ih =>
    rw [List.foldl_cons, ih fun c hc => h c (by simp [hc])]
    rcases h c (by simp) with ⟨a, ss, rfl⟩ | ⟨ss, rfl⟩
    · rfl
    · simp only [Deliver.step, if_true]
      split <;> rfl

/-- Commands that do not take back a `keep` with flags. -/
def Spares (cmds : List Cmd) : Prop := ∀ c ∈ cmds, c ≠ .discard ∧ ∀ ss, c ≠ .keep ss

theorem spares_final {cmds post : List Cmd} (h : Spares post) {f : List Char} {fl : List (List Char)}
    (hf : (Deliver.run lower ws max cmds).final = some (f :: fl)) :
    (Deliver.run lower ws max (cmds ++ post)).final = some (f :: fl) := by
  unfold Deliver.run at hf ⊢
  rw [List.foldl_append]
  generalize cmds.foldl (Deliver.step lower ws max) .new = st at hf
  induction post generalizing st with
  | nil => exact hf
  | cons c post ih =>
    rw [List.foldl_cons]
    refine ih (fun c hc => h c (by simp [hc])) _ ?_
    have hc := h c (by simp)
    cases c with
    | edit a ss => exact hf
    | keep ss => exact absurd rfl (hc.2 ss)
    | discard => exact absurd rfl hc.1
    | fileInto copy ss => simp only [Deliver.step, hf]

/-- **C104 (2).** A message that is kept because nothing else was done with it has the flags of the internal variable at
the end. -/
theorem implicit_keep_flags (hlow : ∀ t, t ≠ [] → lower t ≠ lower []) (cmds : List Cmd) (hf : Fine ws max cmds) (he : Quiet cmds) :
    ∃ fl, (Deliver.run lower ws max cmds).kept = some fl ∧ Means lower fl (Internal lower ws cmds) := by
  have h : (Deliver.run lower ws max cmds).final = some [] := quiet_final (cmds := []) he
  refine ⟨flagsOf (Deliver.run lower ws max cmds).text, ?_, internal_means hlow cmds hf⟩
  simp only [Deliver.kept, h, Option.map_some, true_and]
  split
  · rfl
  · rename_i h; rw [Decidable.not_not.1 h]

/-- **C104 (3).** A message that is kept by `keep` has the flags given, or else those of the internal variable at the time
of `keep`.  What is missing: the case that these are none, see `keep_takes_later` and `keep_no_flags`. -/
theorem keep_flags_partial (hlow : ∀ t, t ≠ [] → lower t ≠ lower []) (cmds post : List Cmd) (hf : Fine ws max cmds)
    (he : Spares post) (ss : List (List Char)) :
    (ss = [] → (∃ f, Internal lower ws cmds f) →
      ∃ fl, (Deliver.run lower ws max (cmds ++ .keep [] :: post)).kept = some fl ∧ Means lower fl (Internal lower ws cmds)) ∧
    (tokens ws ss ≠ [] → (Deliver.run lower ws max (cmds ++ .keep ss :: post)).kept = some (tokens ws ss)) := by
  have hfin : ∀ ss, localOrGlobal ws (Deliver.run lower ws max cmds).text ss ≠ [] →
      (Deliver.run lower ws max (cmds ++ .keep ss :: post)).final =
      some (localOrGlobal ws (Deliver.run lower ws max cmds).text ss) := by
    intro ss hne
    have e : cmds ++ .keep ss :: post = (cmds ++ [.keep ss]) ++ post := by simp
    obtain ⟨f, fl, hfl⟩ := List.exists_cons_of_ne_nil hne
    rw [e, hfl]
    refine spares_final he ?_
    rw [run_snoc, ← hfl]
    rfl
  constructor
  · rintro rfl ⟨f, hf'⟩
    have hm := internal_means hlow cmds hf
    refine ⟨_, ?_, hm⟩
    obtain ⟨g, hg, _⟩ := (hm.2 f).2 hf'
    have hne : localOrGlobal ws (Deliver.run lower ws max cmds).text [] ≠ [] := by
      simpa [localOrGlobal] using List.ne_nil_of_mem hg
    simp only [Deliver.kept, hfin [] hne, Option.map_some, hne, false_and, if_false]
    rfl
  · intro h
    have hss : ss ≠ [] := by rintro rfl; exact h rfl
    have e : localOrGlobal ws (Deliver.run lower ws max cmds).text ss = tokens ws ss := by simp [localOrGlobal, hss]
    simp only [Deliver.kept, hfin ss (by rw [e]; exact h), e, Option.map_some, h, false_and, if_false]

end

/-! ## Examples -/

def seen : List Char := "Seen".toList
def late : List Char := "late".toList

/-- `setflag ["Seen", "x"]; addflag "SEEN late"; removeflag "X"`: the flags are `Seen` and `late`. -/
def exCmds : List Cmd := [.edit .set [seen, ['x']], .edit .add ["SEEN late".toList], .edit .remove [['X']]]

example : Fine asciiWs 100 exCmds := by
  refine ⟨?_, by decide +kernel⟩
  intro a ss h
  simp only [exCmds, List.mem_cons, Cmd.edit.injEq, List.not_mem_nil, or_false] at h
  rcases h with ⟨_, rfl⟩ | ⟨_, rfl⟩ | ⟨_, rfl⟩
  · exact .inr (by decide)
  · exact .inl rfl
  · exact .inl rfl
example : Quiet exCmds := by
  intro c h
  simp only [exCmds, List.mem_cons, List.not_mem_nil, or_false] at h
  rcases h with rfl | rfl | rfl <;> exact .inl ⟨_, _, rfl⟩
example : Spares [.fileInto false [], .edit .set [late]] := by
  intro c h
  simp only [List.mem_cons, List.not_mem_nil, or_false] at h
  rcases h with rfl | rfl <;> simp
example : Stays demoLower asciiWs [.fileInto false [], .fileInto true [], .keep [seen], .discard] false :=
  .inr (.inl (by decide +kernel))
example : ¬ Stays demoLower asciiWs [.fileInto false [], .keep []] false := by simp [Stays, tokens, Before]
example : (Deliver.run demoLower asciiWs 100 exCmds).kept = some [seen, late] := by decide +kernel
example : (Deliver.run demoLower asciiWs 100 (exCmds ++ [.fileInto false []])).filed = [[seen, late]] ∧
    (Deliver.run demoLower asciiWs 100 (exCmds ++ [.fileInto false []])).kept = none := by decide +kernel

/-- **Negation of C104.** `keep; addflag "late";`: the message is kept with a flag set after `keep`. -/
theorem keep_takes_later :
    (Deliver.run demoLower asciiWs 100 [.keep [], .edit .add [late]]).kept = some [late] ∧ ¬ Internal demoLower asciiWs [] late := by
  refine ⟨by decide +kernel, fun h => h⟩

/-- **Negation of C104.** `addflag "Seen"; keep :flags "";`: the message is kept with the flags of the internal variable
although `keep` asks for none. -/
theorem keep_no_flags :
    (Deliver.run demoLower asciiWs 100 [.edit .add [seen], .keep [[]]]).kept = some [seen] ∧ tokens asciiWs [[]] = [] := by
  decide +kernel

/-- **Negation of C104.** `keep :flags ["Seen", "seen"];`: flags given with `:flags` are not freed of repetitions. -/
theorem local_flags_repeat :
    (Deliver.run demoLower asciiWs 100 [.keep [seen, "seen".toList]]).kept = some [seen, "seen".toList] := by decide +kernel

end Sieve.Flags
