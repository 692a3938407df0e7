import Verif.FlagLangProps
import Verif.VarsUnique

/-!
# C123: what a script with flags says is one thing
-/

namespace Sieve.FlagLang

open Sieve.Args Sieve.Fields Sieve.Vars

variable {W V F N : Type} [DecidableEq F]

/-- What `Vars.Clear` says; there is no `removeflag`, whose order is left open; and whatever the variables are, the texts are flags. -/
structure Clear (H : Host W F N) (w : W) (n : Script.Node F) : Prop where
  vars : ∀ f, Vars.Clear (withFlags H) (f, w) n
  noRemove : ∀ g, n ≠ .cmd .RemoveFlag g
  proper : ∀ c g vs, n = .cmd c g → c ∈ [Word.SetFlag, .AddFlag] → g.pos = [.vals vs] ∨ (∃ m, g.pos = [.text m, .vals vs]) →
    ∀ q : Store F × (Text × W), q.2.2 = w →
      Flags.CleanList (see H q).x.ws (vs.map fun v => Tests.text (see H q).x.flt ((see H q).eval v))

theorem added_unique {lower : Text → Text} {old ts a b : List Text} (ha : Added lower old ts a) (hb : Added lower old ts b) : a = b := by
  induction ha with
  | nil => cases hb; rfl
  | has h _ ih =>
    cases hb with
    | has _ h' => exact ih h'
    | new h' _ => exact absurd h h'
  | new h _ ih =>
    cases hb with
    | has h' _ => exact absurd h' h
    | new _ h' => exact ih h'

theorem makes_unique {lower : Text → Text} {c : Word} {old ts a b : List Text} (hc : c ∈ [Word.SetFlag, .AddFlag])
    (ha : Makes lower c old ts a) (hb : Makes lower c old ts b) : a = b := by
  cases ha with
  | set h => cases hb with | set h' => exact added_unique h h'
  | add h => cases hb with | add h' => exact added_unique h h'
  | remove => simp at hc

theorem longest_unique {max : Nat} {s a b : Text} (ha : LongestPrefix max s a) (hb : LongestPrefix max s b) : a = b :=
  (hb.2.2 a ha.1 ha.2.1).eq_of_length_le (ha.2.2 b hb.1 hb.2.1).length_le

theorem after_unique {H : Host W F N} {q : Store F × (Text × W)} {c : Word} (hc : c ∈ [Word.SetFlag, .AddFlag]) {old : Text} {vs : List (Val F)}
    (hp : Flags.CleanList (see H q).x.ws (vs.map fun v => Tests.text (see H q).x.flt ((see H q).eval v))) {a b : Text}
    (ha : After H q c old vs a) (hb : After H q c old vs b) : a = b := by
  obtain ⟨_, ts, rfl, h1, h2⟩ := ha
  obtain ⟨_, ts', rfl, h1', h2'⟩ := hb
  rw [Written.flagsIn_iff] at h1 h1'
  have hpr : Proper H.lowercase (see H q).x.ws c (Flags.flagsOf old)
      (vs.map fun v => Tests.text (see H q).x.flt ((see H q).eval v)) := by
    refine ⟨hp, ?_⟩
    rintro rfl
    simp at hc
  obtain ⟨l, h3, h4⟩ := h2 hpr
  obtain ⟨l', h3', h4'⟩ := h2' hpr
  rw [h1] at h3
  rw [h1'] at h3'
  obtain rfl := makes_unique hc h3 h3'
  exact longest_unique h4 h4'

theorem vars_does_not {H : Vars.Host W F N} {cfg : Vm.Cfg W V Core.Place} {w : W} {c : Word} (hc : c ∈ [Word.SetFlag, .AddFlag, .RemoveFlag])
    {g : Got F} {s s' : Vars.St F} {b : Bool} (h : Vars.Does H cfg w (.cmd c g) s s' b) : False := by
  simp only [List.mem_cons, List.not_mem_nil, or_false] at hc
  rcases hc with rfl | rfl | rfl <;> (cases h with | core h => cases h)

theorem does_unique {x : Args.Ext F} {H : Host W F N} {cfg : Vm.Cfg (Text × W) V Core.Place} {w : W} {n : Script.Node F} (hr : Core.Read x n)
    (hd : Clear H w n) {s s1 s2 : St F} {b1 b2 : Bool} (h1 : Does H cfg w n s s1 b1) (h2 : Does H cfg w n s s2 b2) : s1 = s2 ∧ b1 = b2 := by
  have word : ∀ {c : Word} {g : Got F}, n = .cmd c g → c ∈ [Word.SetFlag, .AddFlag, .RemoveFlag] → c ∈ [Word.SetFlag, .AddFlag] := by
    rintro c g rfl hc
    simp only [List.mem_cons, List.not_mem_nil, or_false] at hc ⊢
    rcases hc with rfl | rfl | rfl
    · exact .inl rfl
    · exact .inr rfl
    · exact absurd rfl (hd.noRemove _)
  cases h1 with
  | vars h1 =>
    cases h2 with
    | vars h2 =>
      obtain ⟨rfl, rfl⟩ := Vars.does_unique hr (hd.vars s.flags) h1 h2
      exact ⟨rfl, rfl⟩
    | flags hc _ _ => exact (vars_does_not hc h1).elim
    | «variable» hc _ _ _ => exact (vars_does_not hc h1).elim
  | flags hc hp ha =>
    cases h2 with
    | vars h2 => exact (vars_does_not hc h2).elim
    | flags _ hp' ha' =>
      rw [hp] at hp'
      simp only [List.cons.injEq, Arg.vals.injEq, and_true] at hp'
      subst hp'
      rw [after_unique (word rfl hc) (hd.proper _ _ _ rfl (word rfl hc) (.inl hp) _ rfl) ha ha']
      exact ⟨rfl, rfl⟩
    | «variable» _ hp' _ _ => rw [hp] at hp'; simp at hp'
  | «variable» hc hp hv ha =>
    cases h2 with
    | vars h2 => exact (vars_does_not hc h2).elim
    | flags _ hp' _ => rw [hp] at hp'; simp at hp'
    | «variable» _ hp' hv' ha' =>
      rw [hp] at hp'
      simp only [List.cons.injEq, Arg.text.injEq, Arg.vals.injEq, and_true] at hp'
      obtain ⟨rfl, rfl⟩ := hp'
      rw [hv] at hv'
      injection hv' with hv'
      subst hv'
      rw [after_unique (word rfl hc) (hd.proper _ _ _ rfl (word rfl hc) (.inr ⟨_, hp⟩) _ rfl) ha ha']
      exact ⟨rfl, rfl⟩

theorem says_unique [DecidableEq N] {H : Host W F N} {w : W} {t : Mime.Tree} {n : Script.Node F} {s s1 s2 : St F} {b1 b2 : Bool}
    (h1 : Says H w t n s b1 s1) (h2 : Says H w t n s b2 s2) : b1 = b2 ∧ s1 = s2 := by
  obtain ⟨rfl, c, g, rfl, h1⟩ := h1
  obtain ⟨rfl, c', g', e, h2⟩ := h2
  injection e with e1 e2
  subst e1 e2
  exact ⟨Bool.eq_iff_iff.2 (h1.trans h2.symm), rfl⟩

/-- **C123** What a text with flags says is one thing: there is at most one list of actions, and the flags at the end are one text.
(After `removeflag` it is so but for the order of the flags.) -/
theorem flags_unique_partial [DecidableEq N] {lx : Lex.Ext Word F} {x : Args.Ext F} {text : List UInt8} {b : Whole.Prog F}
    (h : Whole.Structure lx x text b) {H : Host W F N} {cfg : Vm.Cfg (Text × W) V Core.Place} {w : W} {t : Mime.Tree}
    (hd : ∀ k ∈ b.toks, Lang.TokIn (Clear H w) k) {s1 s2 : St F} {f1 f2 : Bool} (h1 : Runs H cfg w t b (start H) s1 f1)
    (h2 : Runs H cfg w t b (start H) s2 f2) : s1 = s2 ∧ f1 = f2 := by
  refine Lang.block_unique (R := fun n => Core.Read x n ∧ Clear H w n) (T := Says H w t) (D := Does H cfg w) (fun n _ s b1 b2 s1 s2 h1 h2 => says_unique h1 h2)
    (fun n hr s s1 s2 b1 b2 h1 h2 => does_unique hr.1 hr.2 h1 h2) b (fun k hk => ?_) h1 h2
  have h3 := Core.structure_read h k hk
  have h4 := hd k hk
  cases k with
  | act l => exact fun n hn => ⟨h3 n hn, h4 n hn⟩
  | leaf n => exact ⟨h3, h4⟩
  | vac t a => exact ⟨⟨h3.1, h4.1⟩, ⟨h3.2, h4.2⟩⟩
  | _ => trivial

end Sieve.FlagLang
