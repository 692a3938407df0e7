import Verif.AskLangSpec
import Verif.FlagLangProps

/-!
# C124: scripts with questions, from the text to what the host is told
-/

namespace Sieve.AskLang

open Sieve.Args Sieve.Fields Sieve.Vars
open Sieve.FlagLang (Text)

variable {W V F N : Type} [DecidableEq F]

/-! ## The search of `body` -/

/-- A search that ends goes on to end with more steps. -/
theorem walk_mono (keep : Body.Part → Bool) : ∀ (n k : Nat) (m : Body.Msg) (ids : List Nat) (st : List (List Nat × Option Body.Msg))
    (l : List (Body.Part × Body.Bytes)), Body.walk keep n m ids st = some l → Body.walk keep (n + k) m ids st = some l
  | 0, _, _, _, _, _, h => by simp [Body.walk] at h
  | n + 1, k, m, id :: it, st, l, h => by
    rw [show n + 1 + k = (n + k) + 1 by omega]
    unfold Body.walk at h ⊢
    split at h
    · exact walk_mono keep n k _ _ _ _ h
    · rw [Option.map_eq_some_iff] at h ⊢
      obtain ⟨l', h1, h2⟩ := h
      refine ⟨l', ?_, h2⟩
      split at h1 <;> exact walk_mono keep n k _ _ _ _ h1
  | n + 1, k, m, [], (it, prev) :: st, l, h => by
    rw [show n + 1 + k = (n + k) + 1 by omega]
    unfold Body.walk at h ⊢
    split at h <;> exact walk_mono keep n k _ _ _ _ h
  | n + 1, k, m, [], [], l, h => by
    rw [show n + 1 + k = (n + k) + 1 by omega]
    unfold Body.walk at h ⊢
    exact h

/-- Whether the search ends does not depend on what is looked for. -/
theorem walk_ends (keep keep' : Body.Part → Bool) : ∀ (n : Nat) (m : Body.Msg) (ids : List Nat) (st : List (List Nat × Option Body.Msg)),
    (∃ l, Body.walk keep n m ids st = some l) → ∃ l, Body.walk keep' n m ids st = some l
  | 0, _, _, _, h => by simp [Body.walk] at h
  | n + 1, m, id :: it, st, h => by
    unfold Body.walk at h ⊢
    split at h
    · exact walk_ends keep keep' n _ _ _ h
    · obtain ⟨l, h⟩ := h
      rw [Option.map_eq_some_iff] at h
      obtain ⟨l', h1, -⟩ := h
      simp only [Option.map_eq_some_iff]
      have key : ∀ o : Option (List (Body.Part × Body.Bytes)), ∀ f : List (Body.Part × Body.Bytes) → List (Body.Part × Body.Bytes),
          (∃ l, o = some l) → ∃ l a, o = some a ∧ f a = l := by
        rintro o f ⟨l, rfl⟩
        exact ⟨_, _, rfl, rfl⟩
      refine key _ _ ?_
      split at h1 <;> exact walk_ends keep keep' n _ _ _ ⟨_, h1⟩
  | n + 1, m, [], (it, prev) :: st, h => by
    unfold Body.walk at h ⊢
    split at h <;> exact walk_ends keep keep' n _ _ _ h
  | n + 1, m, [], [], _ => ⟨[], by simp [Body.walk]⟩

/-! ## Tests -/

/-- The message that the tests see has the parts `t`, and the search of `body` has steps enough (`Body.nested_parts`). -/
structure Sees (H : Host W F N) (w : W) (t : Mime.Tree) : Prop where
  core : FlagLang.Sees H.flags w t
  forward : Body.Forward (H.flags.other w).msg
  steps : ∃ l, Body.walk (fun _ => true) (H.steps w) (H.flags.other w).msg [t.id] [] = some l
  sym : ∀ a b, (H.flags.vars.core.env w).x.eqIgnoreCase a b = (H.flags.vars.core.env w).x.eqIgnoreCase b a

theorem body_enough {x : Tests.Ext F} {lib : Body.Lib} {c : Tests.Comparator} {m : Tests.Match} {tr : Body.Transform F}
    {subject : Option Tests.Str} {msg : Body.Msg} {part fuel : Nat} {keys : List (Expr.Val F)}
    (h : ∃ l, Body.walk (fun _ => true) fuel msg [part] [] = some l) :
    ∃ b, Body.bodyTest x lib false c m tr subject msg part fuel keys = some b ∧
      ∀ k, Body.bodyTest x lib false c m tr subject msg part (fuel + k) keys = some b := by
  unfold Body.bodyTest
  by_cases hs : Body.subjectMatch x c m keys subject = true
  · simp only [hs, if_true]
    exact ⟨_, rfl, fun _ => rfl⟩
  · rw [if_neg hs]
    cases hf : tr.filters x with
    | none => exact ⟨_, rfl, fun _ => by rw [if_neg hs]⟩
    | some fs =>
      obtain ⟨l, hl⟩ := walk_ends _ (Body.keep x fs) _ _ _ _ h
      refine ⟨_, by simp only [hl]; rfl, fun k => ?_⟩
      rw [if_neg hs]
      simp only [walk_mono _ _ k _ _ _ _ hl]
      rfl

theorem listed_iff (g : Got F) : listed g = true ↔ Uses g .List := by
  unfold listed Uses
  simp only [List.any_eq_true, beq_iff_eq]
  constructor
  · rintro ⟨⟨a, b⟩, h1, h2⟩
    simp only at h2
    subst h2
    exact ⟨b, h1⟩
  · rintro ⟨b, h⟩
    exact ⟨_, h, rfl⟩

/-- What a test finds out. -/
inductive Finds [DecidableEq N] (H : Host W F N) (allowed : Vm.Cap → Bool) (q : Store F × (Text × W)) (t : Mime.Tree) (c : Word) (g : Got F) :
    Answer → Prop where
  | knows {b} : ¬ Asks c g → (Proper H q c g → (b = true ↔ IsTrue H allowed q t c g)) → Finds H allowed q t c g (.bool b)
  | asks {p} : Asks c g → Question H q t g c p → Finds H allowed q t c g (.ask p)
  | nothing : Asks c g → (∀ p, ¬ Question H q t g c p) → Finds H allowed q t c g (.bool false)

theorem lists_found [DecidableEq N] {H : Host W F N} {allowed : Vm.Cap → Bool} {q : Store F × (Text × W)} {t : Mime.Tree} {c : Word} {g : Got F}
    {a : Arg F} {ks : List (Val F)} {P : Text → Prop} {o : Tests.Outcome} (hc : c ∈ [Word.Header, .Address, .Envelope, .String])
    (hl : Uses g .List) (hp : g.pos = [a, .vals ks]) (hP : ∀ v, Value H q t g c v ↔ P v)
    (h : Written.AsksLists g false (ks.map fun k => Tests.text (FlagLang.see H.flags q).x.flt ((FlagLang.see H.flags q).eval k)) P o) :
    Finds H allowed q t c g (ofOutcome o) := by
  rcases h with ⟨h1, rfl⟩ | ⟨asked, k, h1, h2, h3, h4, rfl⟩
  · refine .nothing (.inr ⟨hc, hl⟩) fun p hq => ?_
    have key : ∀ {vals : List Text}, vals ≠ [] → (∀ v, v ∈ vals ↔ Value H q t g c v ∧ v ≠ []) → False := by
      intro vals h5 h6
      obtain ⟨v, hv⟩ := List.exists_mem_of_ne_nil _ h5
      obtain ⟨h7, h8⟩ := (h6 v).1 hv
      exact h8 (h1 v ((hP v).1 h7))
    cases hq with
    | lists _ _ _ h5 _ h6 _ => exact key h5 h6
    | _ => simp at hc
  · exact .asks (.inr ⟨hc, hl⟩) (.lists hc hl hp h1 h2 (fun v => by rw [h3, hP]) h4)

theorem pos_shape {x : Args.Ext F} {c : Word} {g : Got F} (hr : Core.Read x (.test c g))
    (hc : c ∈ [Word.MailboxExists, .MailboxIdExists, .ValidNotifyMethod, .ValidExtList, .ServerMetadataExists]) :
    ∃ vs, g.pos = [.vals vs] := by
  obtain ⟨e, has, ts, r, he, hr⟩ := hr
  have hs : e.shape = .args [] [.strs false] false := by
    simp only [List.mem_cons, List.not_mem_nil, or_false] at hc
    rcases hc with rfl | rfl | rfl | rfl | rfl <;> (have he' := he; injection he' with he'; subst he'; rfl)
  exact Event.pos_vals (.inr he) hr hs

/-- Tests that the host does not answer and that have no `:list`. -/
theorem not_asks {c : Word} {g : Got F} (h : c ∉ [Word.MailboxExists, .MailboxIdExists, .SpecialUseExists, .Duplicate])
    (h' : c ∉ [Word.Header, .Address, .Envelope, .String] ∨ ¬ Uses g .List) : ¬ Asks c g := by
  rintro (h1 | ⟨h1, h2⟩)
  · exact h h1
  · exact h'.elim (fun h' => h' h1) fun h' => h' h2

/-- The tests of this language that are none of `FlagLangModel`. -/
def own : List Word := [.MailboxExists, .MailboxIdExists, .ValidNotifyMethod, .ValidExtList, .ServerMetadataExists, .SpecialUseExists,
  .Duplicate, .Body, .Environment, .Ihave, .MetadataExists]

theorem ihave_iff (allowed : Vm.Cap → Bool) (caps : List Vm.Cap) :
    ihave allowed caps = true ↔ ∀ c ∈ caps, allowed c = true ∧ c ≠ .known "variables" ∧ c ≠ .known "encoded-character" := by
  simp [ihave, and_comm]

section
variable [DecidableEq N] {x : Args.Ext F} {H : Host W F N} {w : W} {t : Mime.Tree}

theorem strings_find (hs : Sees H w t) (allowed : Vm.Cap → Bool) (σ : Store F) (f : Text) {c : Word} {g : Got F} {vs : List (Val F)}
    (hc : c ∈ [Word.MailboxExists, .MailboxIdExists, .ValidNotifyMethod, .ValidExtList, .ServerMetadataExists]) (hp : g.pos = [.vals vs])
    (ht : Test (.test c g)) : ∃ a, H.strings (σ, (f, w)) c vs = some a ∧ Finds H allowed (σ, (f, w)) t c g a := by
  have only : ∀ {P : List (Val F) → Prop}, (∃ vs, g.pos = [.vals vs] ∧ P vs) ↔ P vs := by
    intro P
    constructor
    · rintro ⟨vs', h1, h2⟩
      rw [hp] at h1
      simp only [List.cons.injEq, Arg.vals.injEq, and_true] at h1
      exact h1 ▸ h2
    · exact fun h => ⟨vs, hp, h⟩
  simp only [List.mem_cons, List.not_mem_nil, or_false] at hc
  rcases hc with rfl | rfl | rfl | rfl | rfl
  · exact ⟨_, rfl, .asks (.inl (by simp)) (.mailboxes hp)⟩
  · exact ⟨_, rfl, .asks (.inl (by simp)) (.ids hp)⟩
  · obtain ⟨b, h1, h2⟩ := Tests.valid_notify_method (H.flags.other w).mailto (H.flags.other w).notifyUris
      (vs.map fun v => (H.flags.env (σ, (f, w))).x.utf8 (H.text (σ, (f, w)) v)) false
    refine ⟨.bool b, by simp [Host.strings, h1], .knows (not_asks (by simp) (.inl (by simp))) fun _ => h2.trans ?_⟩
    refine Iff.trans ?_ only.symm
    simp only [List.mem_map, forall_exists_index, and_imp, forall_apply_eq_imp_iff₂]
    rfl
  · obtain ⟨b, h1, h2⟩ := Tests.valid_ext_list (H.lists w) (vs.map (H.text (σ, (f, w)))) false
    refine ⟨.bool b, by simp [Host.strings, h1], .knows (not_asks (by simp) (.inl (by simp))) fun _ => h2.trans ?_⟩
    refine Iff.trans ?_ only.symm
    simp only [List.mem_map, forall_exists_index, and_imp, forall_apply_eq_imp_iff₂]
    rfl
  · obtain ⟨b, h1, h2⟩ := Tests.metadataexists_test (H.flags.env (σ, (f, w))).x hs.sym (H.flags.other w).stored none
      (vs.map (H.text (σ, (f, w)))) (by simpa using ht vs (by simp [hp])) false
    refine ⟨.bool b, by simp [Host.strings, h1], .knows (not_asks (by simp) (.inl (by simp))) fun _ => h2.trans ?_⟩
    refine Iff.trans ?_ only.symm
    simp only [List.mem_map, forall_exists_index, and_imp, forall_apply_eq_imp_iff₂]
    rfl

theorem test_finds (hs : Sees H w t) (allowed : Vm.Cap → Bool) (σ : Store F) (f : Text) {c : Word} {g : Got F}
    (hr : Core.Read x (.test c g)) (hc : Test (.test c g)) :
    ∃ a, H.test allowed (σ, (f, w)) (.test c g) = some a ∧ Finds H allowed (σ, (f, w)) t c g a := by
  have ok : (H.flags.env (σ, (f, w))).x.Ok := hs.core.ok
  by_cases h5 : c ∈ [Word.MailboxExists, .MailboxIdExists, .ValidNotifyMethod, .ValidExtList, .ServerMetadataExists]
  · obtain ⟨vs, hp⟩ := pos_shape hr h5
    obtain ⟨a, h1, h2⟩ := strings_find hs allowed σ f h5 hp hc
    refine ⟨a, ?_, h2⟩
    rw [← h1]
    simp only [List.mem_cons, List.not_mem_nil, or_false] at h5
    rcases h5 with rfl | rfl | rfl | rfl | rfl <;> simp [Host.test, hp]
  by_cases h : c ∈ own
  · obtain ⟨e, has, ts, r, he, hr⟩ := hr
    simp only [own, List.mem_cons, List.not_mem_nil, or_false] at h h5
    push Not at h5
    rcases h with rfl | rfl | rfl | rfl | rfl | rfl | rfl | rfl | rfl | rfl | rfl
    · exact absurd rfl h5.1
    · exact absurd rfl h5.2.1
    · exact absurd rfl h5.2.2.1
    · exact absurd rfl h5.2.2.2.1
    · exact absurd rfl h5.2.2.2.2
    · obtain ⟨i, h1, h2⟩ := Event.specialuse_events (S := Unit) x has he hr
      rcases h2 (H.flags.up.at.events (σ, (f, w))) with ⟨vs, h3, h4⟩ | ⟨m, vs, h3, h4⟩
      · exact ⟨_, by simp only [Host.test, h1, Option.bind_some, h4, ofEvent]; rfl, .asks (.inl (by simp)) (.uses h3)⟩
      · exact ⟨_, by simp only [Host.test, h1, Option.bind_some, h4, ofEvent]; rfl, .asks (.inl (by simp)) (.usesOf h3)⟩
    · rcases Written.duplicate_written (N := N) x has he hr (H.flags.env (σ, (f, w))) (H.flags.other w) t false
        (H.flags.vars.core.fuel w) hs.core.parts hs.core.root hs.core.fuel with ⟨id, d, h1, h2, h3, h4, h6, h7, h8⟩ | ⟨h1, h2⟩
      · exact ⟨_, by simp only [Host.test, h2, Option.map_some, ofDuplicate], .asks (.inl (by simp)) (.duplicate h1 h3 h4 h6 h7 h8)⟩
      · refine ⟨_, by simp only [Host.test, h2, Option.map_some, ofDuplicate], .nothing (.inl (by simp)) fun p hq => ?_⟩
        cases hq with
        | duplicate h3 => exact h1 _ h3
        | lists h3 => simp at h3
    · obtain ⟨i, ks, h1, h2, h3⟩ := Written.body_written_partial (N := N) x has he hr
      obtain ⟨b, h4, h6⟩ := body_enough (x := (H.flags.env (σ, (f, w))).x) (lib := (H.flags.other w).lib)
        (c := Written.comparatorOf i.comparator) (m := Written.matchOf 0 i.matchType)
        (tr := Written.transformOf (H.flags.env (σ, (f, w))) i.body) (subject := Written.subjectOf (H.flags.other w) i.subject i.body)
        (keys := i.keys.map (H.flags.env (σ, (f, w))).eval) hs.steps
      have hroot : (H.flags.env (σ, (f, w))).part = t.id := hs.core.root
      refine ⟨.bool b, ?_, .knows (not_asks (by simp) (.inl (by simp))) fun hp => ?_⟩
      · have h4' : Written.body (H.flags.env (σ, (f, w))) (H.flags.other w) false 0 (H.steps w) i = some b := by
          unfold Written.body
          rw [hroot]
          exact h4
        simp only [Host.test, h1, Option.bind_some, h4', Option.map_some]
      · obtain ⟨b', n, h7, h8⟩ := h3 (H.flags.env (σ, (f, w))) (H.flags.other w) false 0 ok hc hs.forward (hp rfl)
        have : b = b' := by
          have h9 := h7 (H.steps w + n) (by omega)
          unfold Written.body at h9
          rw [hroot] at h9
          have h10 := (h6 n).symm.trans h9
          simpa using h10
        subst this
        rw [hroot] at h8
        refine h8.trans ⟨fun h => ⟨ks, h2, h⟩, ?_⟩
        rintro ⟨ks', h9, h⟩
        rw [h2] at h9
        simp only [List.cons.injEq, Arg.vals.injEq, and_true] at h9
        subst h9
        exact h
    · obtain ⟨hg, n, k, hp⟩ := hc
      have hv := compares_of (test_vars x has (.inl he) hr)
      obtain ⟨b, caps, h1, h2⟩ := Tests.string_test_partial ok true false (Written.comparatorOf (testVarsOf g).comparator)
        (Written.matchOf 0 (testVarsOf g).matchType) (Written.comparing_of hv hg 0)
        [((H.items w (lower n)).getD (.str []))] ((H.flags.env (σ, (f, w))).eval k) (fun _ _ => Written.charwise_of (fun h => absurd rfl h) _ _)
      refine ⟨.bool b, ?_, .knows (not_asks (by simp) (.inl (by simp))) fun _ => h2.trans ?_⟩
      · simp only [Host.test, Host.environment, hp, List.map_cons, List.map_nil, h1, ofOutcome, Bool.xor_false]
      · simp only [List.mem_singleton, exists_eq_left, forall_const]
        cases hi : H.items w (lower n) with
        | none =>
          simp only [Option.getD_none, ne_eq, not_true_eq_false, false_and, false_iff]
          rintro ⟨n', k', v, h3, h4, -⟩
          rw [hp] at h3
          simp only [List.cons.injEq, Arg.text.injEq, Arg.vals.injEq, and_true] at h3
          rw [← h3.1] at h4
          exact absurd (h4.symm.trans hi) (by simp)
        | some v =>
          simp only [Option.getD_some]
          constructor
          · rintro ⟨h3, h4⟩
            exact ⟨n, k, v, hp, hi, h3, (Written.meets_iff hv _ _ _ _).1 h4⟩
          · rintro ⟨n', k', v', h3, h4, h5, h6⟩
            rw [hp] at h3
            simp only [List.cons.injEq, Arg.text.injEq, Arg.vals.injEq, and_true] at h3
            obtain ⟨rfl, rfl⟩ := h3
            obtain rfl : v' = v := by
              have := h4.symm.trans hi
              injection this
            exact ⟨h5, (Written.meets_iff hv _ _ _ _).2 h6⟩
    · have hp : ∃ ns, g.pos = [.texts ns] := by
        have he' := he
        injection he' with he'
        subst he'
        obtain ⟨l, hl, hg⟩ := positions (.inr he) hr rfl
        rcases hl with _ | ⟨⟨u1, h1⟩, _ | _⟩
        rcases hg with hg | ⟨hg, -⟩
        · rw [hg]
          cases h1
          exact ⟨_, rfl⟩
        · cases hg
      obtain ⟨ns, hp⟩ := hp
      refine ⟨.bool (ihave allowed (H.flags.vars.core.caps ns)), by simp [Host.test, hp], .knows (not_asks (by simp) (.inl (by simp))) fun _ => ?_⟩
      rw [ihave_iff]
      refine ⟨fun h => ⟨ns, hp, h⟩, ?_⟩
      rintro ⟨ns', h1, h⟩
      rw [hp] at h1
      simp only [List.cons.injEq, Arg.texts.injEq, and_true] at h1
      subst h1
      exact h
    · have hp : ∃ mb vs, g.pos = [.val mb, .vals vs] := by
        have he' := he
        injection he' with he'
        subst he'
        obtain ⟨l, hl, hg⟩ := positions (.inr he) hr rfl
        rcases hl with _ | ⟨⟨u1, h1⟩, _ | ⟨⟨u2, h2⟩, _ | _⟩⟩
        rcases hg with hg | ⟨hg, -⟩
        · rw [hg]
          cases h1
          cases h2
          exact ⟨_, _, rfl⟩
        · cases hg
      obtain ⟨mb, vs, hp⟩ := hp
      obtain ⟨b, h1, h2⟩ := Tests.metadataexists_test (H.flags.env (σ, (f, w))).x hs.sym (H.flags.other w).stored
        (some (H.text (σ, (f, w)) mb)) (vs.map (H.text (σ, (f, w)))) (by simpa using hc vs (by simp [hp])) false
      refine ⟨.bool b, by simp [Host.test, hp, h1], .knows (not_asks (by simp) (.inl (by simp))) fun _ => h2.trans ?_⟩
      simp only [List.mem_map, forall_exists_index, and_imp, forall_apply_eq_imp_iff₂]
      refine ⟨fun h => ⟨mb, vs, hp, h⟩, ?_⟩
      rintro ⟨mb', vs', h3, h⟩
      rw [hp] at h3
      simp only [List.cons.injEq, Arg.val.injEq, Arg.vals.injEq, and_true] at h3
      obtain ⟨rfl, rfl⟩ := h3
      exact h
  · have e1 : H.test allowed (σ, (f, w)) (.test c g) =
        if listed g then H.list (σ, (f, w)) (.test c g) else (H.flags.test (σ, (f, w)) (.test c g)).map .bool := by
      unfold Host.test
      split
      case h_7 =>
        rename_i h'
        injection h' with h1 h2
        subst h1 h2
        rw [if_neg h5]
      case h_8 =>
        rename_i h'
        exact (h' _ _ rfl).elim
      all_goals (rename_i h'; injection h' with h' _; subst h'; exact absurd (by simp [own]) h)
    have e3 : Asks c g ∨ ¬ Uses g .List ∧ FlagLang.Test (.test c g) := by
      unfold Test at hc
      split at hc
      case h_5 =>
        rename_i h'
        injection h' with h1 h2
        subst h1 h2
        rcases hc with hc | hc
        · simp only [List.mem_cons, List.not_mem_nil, or_false] at hc
          rcases hc with rfl | rfl | rfl <;> exact absurd (by simp [own]) h
        · exact hc
      case h_6 => exact hc.elim
      all_goals (rename_i h'; injection h' with h' _; subst h'; exact absurd (by simp [own]) h)
    rw [e1]
    have hno : c ∉ [Word.MailboxExists, .MailboxIdExists, .SpecialUseExists, .Duplicate] := by
      intro h'
      simp only [List.mem_cons, List.not_mem_nil, or_false] at h'
      rcases h' with rfl | rfl | rfl | rfl <;> exact h (by simp [own])
    rcases e3 with (h' | ⟨hm, hl⟩) | ⟨hl, ht⟩
    · exact absurd h' hno
    · rw [if_pos ((listed_iff g).2 hl)]
      obtain ⟨e, has, ts, r, he, hr⟩ := hr
      have hm' := hm
      simp only [List.mem_cons, List.not_mem_nil, or_false] at hm'
      rcases hm' with rfl | rfl | rfl | rfl
      · obtain ⟨i, us, ks, h1, h2, h3⟩ := Written.header_listed (N := N) x has he hr
        obtain ⟨o, h4, h6⟩ := h3 (H.flags.env (σ, (f, w))) t false 0 (H.flags.vars.core.fuel w) hs.core.parts hs.core.root hs.core.fuel hl
        refine ⟨_, by simp only [Host.list, h1, Option.bind_some, h4, Option.map_some], lists_found hm hl h2 (fun v => ?_) h6⟩
        constructor
        · rintro ⟨h7, h8, h9⟩
          rw [h2] at h7
          simp only [List.cons.injEq, Arg.vals.injEq, and_true] at h7
          obtain ⟨rfl, -⟩ := h7
          exact ⟨_, h8, h9⟩
        · rintro ⟨hd, h7, h8⟩
          exact .header h2 h7 h8
      · obtain ⟨i, us, ks, h1, h2, h3⟩ := Written.address_listed (N := N) x has he hr
        obtain ⟨o, h4, h6⟩ := h3 (H.flags.env (σ, (f, w))) t false 0 (H.flags.vars.core.fuel w) hs.core.parts hs.core.root hs.core.fuel hl
        refine ⟨_, by simp only [Host.list, h1, Option.bind_some, h4, Option.map_some], lists_found hm hl h2 (fun v => ?_) h6⟩
        constructor
        · rintro (_ | ⟨h7, h8, h9, h10⟩ | _ | _)
          rw [h2] at h7
          simp only [List.cons.injEq, Arg.vals.injEq, and_true] at h7
          obtain ⟨rfl, -⟩ := h7
          exact ⟨_, _, h8, h9, h10⟩
        · rintro ⟨hd, q, h7, h8, h9⟩
          exact .address h2 h7 h8 h9
      · obtain ⟨i, ns, ks, h1, h2, h3⟩ := Written.envelope_listed (N := N) x has he hr
        refine ⟨_, by simp only [Host.list, h1, Option.map_some], lists_found hm hl h2 (fun v => ?_) (h3 (H.flags.env (σ, (f, w))) false 0 hl)⟩
        constructor
        · rintro (_ | _ | ⟨h7, h8, h9, h10, h11, h12, h13, h14⟩ | _)
          rw [h2] at h7
          simp only [List.cons.injEq, Arg.texts.injEq, and_true] at h7
          obtain ⟨rfl, -⟩ := h7
          exact ⟨_, h8, ⟨_, h9, _, h10, h11⟩, _, _, h12, h13, h14⟩
        · rintro ⟨fl, h7, ⟨u, h8, n, h9, h10⟩, q, z, h11, h12, h13⟩
          exact .envelope h2 h7 h8 h9 h10 h11 h12 h13
      · obtain ⟨i, ss, ks, h1, h2, h3⟩ := Written.string_listed (N := N) x has he hr
        refine ⟨_, by simp only [Host.list, h1, Option.map_some], lists_found hm hl h2 (fun v => ?_) (h3 (H.flags.env (σ, (f, w))) false 0 hl)⟩
        constructor
        · rintro (_ | _ | _ | ⟨h7, h8⟩)
          rw [h2] at h7
          simp only [List.cons.injEq, Arg.vals.injEq, and_true] at h7
          obtain ⟨rfl, -⟩ := h7
          exact ⟨_, h8, rfl⟩
        · rintro ⟨s, h7, rfl⟩
          exact .string h2 h7
    · rw [if_neg (by rw [listed_iff]; exact hl)]
      obtain ⟨b, h1, h2⟩ := FlagLang.test_says hs.core σ f hr ht
      refine ⟨.bool b, by rw [h1]; rfl, .knows (not_asks hno (.inr hl)) fun _ => h2.trans ?_⟩
      have e2 : IsTrue H allowed (σ, (f, w)) t c g = FlagLang.IsTrue H.flags (σ, (f, w)) t c g := by
        unfold IsTrue
        split <;> first
          | rfl
          | exact absurd (by simp [own]) h
      rw [e2]

/-! ## Commands -/

/-- Commands leave the answers of the host as they are. -/
theorem command_answers {P : Type} {cfg : Vm.Cfg W V P} {st st' : Base.State W V P} {i : Vm.Instr W V P} {b : Bool}
    (h : Base.command cfg st i = some (st', b)) : st'.answers = st.answers := by
  have hw : (Base.writeDown cfg st).answers = st.answers := by
    unfold Base.writeDown
    split <;> rfl
  unfold Base.command at h
  repeat' split at h
  all_goals first
    | (cases h; rfl)
    | (cases h; exact hw)
    | cases h

variable {cfg : Vm.Cfg (Text × W) (Expr.Val F) Core.Place} {notV : Expr.Val F → Expr.Val F} {hnot : ∀ v, cfg.toBool (notV v) = !cfg.toBool v}

/-- A state of the interpreter and one of the script. -/
def Rep (H : Host W F N) (ans : Nat → Bool) (w : W) (s : FlagLang.St F) (st : Base.State (Text × W) (Expr.Val F) Core.Place) : Prop :=
  FlagLang.Rep H.flags w s st ∧ st.answers = ans

/-- The instructions do what the language says. -/
theorem models (hs : Sees H w t) (hf : FlagLang.Fits H.flags cfg w) (ans : Nat → Bool) :
    Lang.Models (H.interp cfg notV hnot) (Core.Read x) (AskTest H) (FlagLang.FlagCmd H.flags cfg) (Says H cfg.allowed ans w t)
      (FlagLang.Does H.flags cfg w) (Rep H ans w) where
  test := by
    intro n s st hr hp h
    cases n with
    | test c g =>
      obtain ⟨a, h1, h2⟩ := test_finds hs cfg.allowed s.vars s.flags hr hp.2
      have hk : H.flags.up.accepts g = true := (accepts_iff H.flags.up g).2 hp.1
      have hsee : H.flags.up.see st.view = (s.vars, (s.flags, w)) := h.1.core.seen
      cases h2 with
      | @knows b h3 h4 => exact ⟨b, st, s, by simp [Base.atomTruth, Host.interp, Core.got, hk, hsee, h1], .knows h3 h4, h⟩
      | @asks p h3 h4 =>
        refine ⟨ans (Base.asked s.core.acts), { st with acts := st.acts ++ [.ask p] }, _, ?_, .asks h3 h4, ?_, h.2⟩
        · have ha : st.acts = s.core.acts := h.1.core.acts
          simp [Base.atomTruth, Host.interp, Core.got, hk, hsee, h1, ha, h.2]
        · exact ⟨⟨h.1.core.world, h.1.core.seen, h.1.core.out.trans (by simp [Core.outgoing_append, Core.outgoing]), h.1.core.redirects, (by
            show st.acts ++ _ = s.core.acts ++ _
            rw [show st.acts = s.core.acts from h.1.core.acts]), h.1.core.edited⟩, h.1.slots⟩
      | nothing h3 h4 => exact ⟨false, st, s, by simp [Base.atomTruth, Host.interp, Core.got, hk, hsee, h1], .nothing h3 h4, h⟩
    | _ => exact hp.2.elim
  cmd := fun n s st hr hc h => by
    obtain ⟨s', b, st', h1, h2, h3⟩ := FlagLang.command_does hf hr hc h.1
    exact ⟨s', b, st', h1, h2, h3, (command_answers h1).trans h.2⟩

end

/-! ## C124 -/

open Vm in
/-- **C124** A text with questions does what it says.  The host hands over the script that the compiler has made of a text, and answers all
events by `true` or `false`, the first, second, … question by `ans 0`, `ans 1`, ….  Then the script runs to actions as `Runs` says: the
question that a test puts is that of its arguments at that moment, the test is true exactly if the host says so, it is false without a
question if there is nothing to ask about, and all other tests are as RFC 5173, 5183, 5463, 5490, 5435 and 6134 have them; and, if no
action after a `keep` cancels the implicit keep and the limit of instructions is not exceeded, the host is told the questions and the
deliveries in their order, then what becomes of the message, and nothing else.

The full claim would have no condition `KeepsLast` (`Base.kept_message_lost`), and would be without the conditions of `Test`: several keys
of `environment` (C118), content types of `body` that are none (C66). -/
theorem asks_text_partial [DecidableEq N] {lx : Lex.Ext Word F} {x : Args.Ext F} {lim : Compile.Limits} {maxSize : Nat}
    {H : Host W F N} {cfg : Cfg (Text × W) (Expr.Val F) Core.Place} {notV : Expr.Val F → Expr.Val F}
    {hnot : ∀ v, cfg.toBool (notV v) = !cfg.toBool v} {w : W} {t : Mime.Tree}
    {src : Vm.Script (Text × W) (Expr.Val F) Core.Place → Whole.Prog F} {n : Vm.Name} {s : Vm.Script (Text × W) (Expr.Val F) Core.Place} {r m}
    (hS : Sees H w t) (hF : FlagLang.Fits H.flags cfg w) (hE : ∀ v, cfg.isEmpty v = true → v = cfg.empty)
    (hV : s.numVars = H.flags.vars.names.length)
    (hh : Hist cfg (Ctx.new ([], w)) (.input (.script n s) :: r) m) (ha : Accepted s) (hA : Base.Answers (Source.io r))
    {ans : Nat → Bool} (hQ : Base.Answered ans (Source.io r))
    (hC : .output (.error .cpuLimit) ∉ Source.io r) (hs : Whole.FromText lx x lim maxSize (H.interp cfg notV hnot) src s)
    (hreg : ∀ n s, cfg.registered n = some s → Whole.FromText lx x lim maxSize (H.interp cfg notV hnot) src s)
    (hask : Asking H cfg (src s)) :
    ∃ st stopped, Runs H cfg ans w t (src s) (FlagLang.start H.flags) st stopped ∧ (Base.KeepsLast st.core.acts →
      (∀ o, .output o ∈ Source.io r → o = .none ∨ ∃ e, o = .event e) ∧
      ∃ l, Core.Finally (FlagLang.withFlags H.flags).core (st.flags, w) st.core.acts l ∧ Base.told (Source.io r) <+: Base.sent st.core.acts ++ l ∧
        (.output .none ∈ Source.io r → Base.told (Source.io r) = Base.sent st.core.acts ++ l)) := by
  obtain ⟨text, ops, h1, -, -⟩ := hs.compiled
  have h0 : Rep H ans w (FlagLang.start H.flags) (Base.initial cfg ([], w) H.flags.vars.names.length s.numMatchVars ans) :=
    ⟨FlagLang.rep_start H.flags hF s.numMatchVars ans, rfl⟩
  rw [← hV] at h0
  have hread : ∀ k ∈ (src s).toks, Lang.TokIn (Core.Read x) k := fun k hk => by
    have := Core.structure_read h1 k hk
    cases k <;> exact this
  obtain ⟨st, b, bst, h2, h3, h4, -⟩ := Lang.block_runs (models (x := x) (notV := notV) (hnot := hnot) hS hF ans) (src s) hread hask h0
  refine ⟨st, b, h3, fun hk => ?_⟩
  have ho : Base.outcome (H.interp cfg notV hnot) (src s) ([], w) s.numVars s.numMatchVars ans = some bst := by
    unfold Base.outcome
    rw [h2]
    rfl
  have hu := Base.outcome_untouched (fun a f => FlagLang.act_edit H.flags a f) ho
  rw [← h4.core.acts] at hk ⊢
  obtain ⟨h5, l, h6, h7⟩ := Base.base_text_partial hE hh ha hA hQ hC hs hreg ho hk hu.upToDate
  refine ⟨h5, l, ⟨fun fl hfl => ?_, h6.discard, h6.other⟩, h7⟩
  rw [hu.last h6 hfl, h4.core.world, (hF.vars st.flags).core.flags]

end Sieve.AskLang
