import Verif.FlagLangSpec
import Verif.LangProps
import Verif.VarsProps
import Verif.FlagsDeliver

/-!
# C123: scripts with flags, from the text to what the host is told
-/

namespace Sieve.FlagLang

open Sieve.Args Sieve.Fields Sieve.Vars

variable {W V F N : Type} [DecidableEq F]

/-! ## Tests -/

/-- The tests of this language that are none of `VarsModel`. -/
def own : List Word := [.HasFlag, .Date, .CurrentDate, .SpamTest, .VirusTest, .Metadata, .ServerMetadata, .NotifyMethodCapability]

/-- The message that the tests see has the parts `t`. -/
abbrev Sees (H : Host W F N) (w : W) (t : Mime.Tree) : Prop := Core.Sees H.vars.core w t

theorem Sees.at {H : Host W F N} {w : W} {t : Mime.Tree} (h : Sees H w t) (σ : Store F) (f : Text) : Core.Sees H.up.at (σ, (f, w)) t :=
  ⟨h.ok, h.parts, h.root, h.fuel⟩

theorem partNamed_unique {part : List UInt8} {d e : Tests.DatePart} (h : PartNamed part d) (h' : PartNamed part e) : d = e := by
  have h1 := (Written.datePartOf_iff (lower part) d).2 h
  have h2 := (Written.datePartOf_iff (lower part) e).2 h'
  rw [h1] at h2
  exact Option.some.inj h2

theorem not_julian {part : List UInt8} {dp : Tests.DatePart} {n : String} (hn : Written.DateName n dp) (hl : lower part = bytes n)
    (h : lower part ≠ bytes "julian") : dp ≠ .julian := by
  rintro rfl
  cases hn
  exact h hl

theorem test_says [DecidableEq N] {x : Args.Ext F} {H : Host W F N} {w : W} {t : Mime.Tree} (hs : Sees H w t) (σ : Store F) (f : Text)
    {c : Word} {g : Got F} (hr : Core.Read x (.test c g)) (hc : Test (.test c g)) :
    ∃ b, H.test (σ, (f, w)) (.test c g) = some b ∧ (b = true ↔ IsTrue H (σ, (f, w)) t c g) := by
  have ok : (H.env (σ, (f, w))).x.Ok := hs.ok
  by_cases h : c ∈ own
  · obtain ⟨e, has, ts, r, he, hr⟩ := hr
    simp only [own, List.mem_cons, List.not_mem_nil, or_false] at h
    rcases h with rfl | rfl | rfl | rfl | rfl | rfl | rfl | rfl
    · obtain ⟨i, h1, h2⟩ := Written.hasflag_written_partial (N := N) x has he hr
      obtain ⟨b, caps, h3, h4⟩ := h2 (H.env (σ, (f, w))) false 0 ok hc.1 hc.2 (fun h => absurd rfl h)
      exact ⟨b, by simp [Host.test, h1, h3, Core.boolOf], h4⟩
    · obtain ⟨i, v, part, ks, n, dp, h1, h2, h3, h4, h5⟩ := Written.date_written_partial (N := N) x has he hr
      obtain ⟨b, caps, h6, h7⟩ := h5 (H.env (σ, (f, w))) (H.other w) t false 0 (H.vars.core.fuel w) ok hs.parts hs.root hs.fuel hc.1 hc.2.1
        (fun _ _ _ _ _ _ hj => absurd hj (not_julian h3 h4 (hc.2.2 part (by simp [h2])))) (fun h => absurd rfl h)
      refine ⟨b, by simp [Host.test, h1, h6, Core.boolOf], h7.trans ⟨fun h => ⟨v, part, ks, dp, h2, ⟨n, h3, h4⟩, h⟩, ?_⟩⟩
      rintro ⟨v', part', ks', dp', h8, h9, h⟩
      rw [h2] at h8
      simp only [List.cons.injEq, Arg.val.injEq, Arg.text.injEq, Arg.vals.injEq, and_true] at h8
      obtain ⟨rfl, rfl, rfl⟩ := h8
      obtain rfl := partNamed_unique h9 ⟨n, h3, h4⟩
      exact h
    · obtain ⟨i, part, ks, n, dp, h1, h2, h3, h4, h5⟩ := Written.currentdate_written_partial (N := N) x has he hr
      obtain ⟨b, caps, h6, h7⟩ := h5 (H.env (σ, (f, w))) (H.other w) false 0 ok hc.1 hc.2.1
        (fun _ _ hj => absurd hj (not_julian h3 h4 (hc.2.2 part (by simp [h2])))) (fun h => absurd rfl h)
      refine ⟨b, by simp [Host.test, h1, h6, Core.boolOf], h7.trans ⟨fun h => ⟨part, ks, dp, h2, ⟨n, h3, h4⟩, h⟩, ?_⟩⟩
      rintro ⟨part', ks', dp', h8, h9, h⟩
      rw [h2] at h8
      simp only [List.cons.injEq, Arg.text.injEq, Arg.vals.injEq, and_true] at h8
      obtain ⟨rfl, rfl⟩ := h8
      obtain rfl := partNamed_unique h9 ⟨n, h3, h4⟩
      exact h
    · obtain ⟨i, v, h1, h2, h3⟩ := Written.spamtest_written (N := N) x has he hr
      obtain ⟨b, caps, h4, h5⟩ := h3 (H.env (σ, (f, w))) (H.other w) false 0 ok hc (fun h => absurd rfl h)
      refine ⟨b, by simp [Host.test, h1, h4, Core.boolOf], h5.trans ⟨fun h => ⟨v, h2, h⟩, ?_⟩⟩
      rintro ⟨v', h6, h⟩
      rw [h2] at h6
      simp only [List.cons.injEq, Arg.val.injEq, and_true] at h6
      obtain rfl := h6
      exact h
    · obtain ⟨i, v, h1, h2, h3⟩ := Written.virustest_written (N := N) x has he hr
      obtain ⟨b, caps, h4, h5⟩ := h3 (H.env (σ, (f, w))) (H.other w) false 0 ok hc (fun h => absurd rfl h)
      refine ⟨b, by simp [Host.test, h1, h4, Core.boolOf], h5.trans ⟨fun h => ⟨v, h2, h⟩, ?_⟩⟩
      rintro ⟨v', h6, h⟩
      rw [h2] at h6
      simp only [List.cons.injEq, Arg.val.injEq, and_true] at h6
      obtain rfl := h6
      exact h
    · obtain ⟨i, mb, an, ks, h1, h2, h3⟩ := Written.metadata_written (N := N) x has he hr
      obtain ⟨b, caps, h4, h5⟩ := h3 (H.env (σ, (f, w))) (H.other w) false 0 ok hc (fun h => absurd rfl h)
      refine ⟨b, by simp [Host.test, h1, h4, Core.boolOf], h5.trans ⟨fun h => ⟨mb, an, ks, h2, h⟩, ?_⟩⟩
      rintro ⟨mb', an', ks', h6, h⟩
      rw [h2] at h6
      simp only [List.cons.injEq, Arg.val.injEq, Arg.vals.injEq, and_true] at h6
      obtain ⟨rfl, rfl, rfl⟩ := h6
      exact h
    · obtain ⟨i, an, ks, h1, h2, h3⟩ := Written.servermetadata_written (N := N) x has he hr
      obtain ⟨b, caps, h4, h5⟩ := h3 (H.env (σ, (f, w))) (H.other w) false 0 ok hc (fun h => absurd rfl h)
      refine ⟨b, by simp [Host.test, h1, h4, Core.boolOf], h5.trans ⟨fun h => ⟨an, ks, h2, h⟩, ?_⟩⟩
      rintro ⟨an', ks', h6, h⟩
      rw [h2] at h6
      simp only [List.cons.injEq, Arg.val.injEq, Arg.vals.injEq, and_true] at h6
      obtain ⟨rfl, rfl⟩ := h6
      exact h
    · obtain ⟨i, uri, cap, ks, h1, h2, h3⟩ := Written.notifyCapability_written (N := N) x has he hr
      obtain ⟨b, h4, h5⟩ := h3 (H.env (σ, (f, w))) (H.other w) false 0 ok hc
      refine ⟨b, by simp [Host.test, h1, h4], h5.trans ⟨fun h => ⟨uri, cap, ks, h2, h⟩, ?_⟩⟩
      rintro ⟨uri', cap', ks', h6, h⟩
      rw [h2] at h6
      simp only [List.cons.injEq, Arg.val.injEq, Arg.vals.injEq, and_true] at h6
      obtain ⟨rfl, rfl, rfl⟩ := h6
      exact h
  · have e1 : H.test (σ, (f, w)) (.test c g) = H.up.test (σ, (f, w)) (.test c g) := by
      unfold Host.test
      split <;> first
        | rfl
        | (rename_i h'; injection h' with h' _; subst h'; exact absurd (by simp [own]) h)
    have e2 : IsTrue H (σ, (f, w)) t c g = Vars.IsTrue (H.up.at.env (σ, (f, w))) (H.vars.core.size w) t c g := by
      unfold IsTrue
      split <;> first
        | rfl
        | exact absurd (by simp [own]) h
    have e3 : Vars.Test (.test c g) := by
      unfold Test at hc
      split at hc <;> first
        | exact hc
        | (rename_i h'; injection h' with h' _; subst h'; exact absurd (by simp [own]) h)
    rw [e1, e2]
    exact Vars.test_says (hs.at σ f) hr e3

/-! ## Flags -/

theorem joinSp_flagsOf (s : Text) : Flags.joinSp (Flags.flagsOf s) = s := by
  unfold Flags.flagsOf
  split
  · rename_i h
    rw [h]
    rfl
  · exact Flags.joinSp_splitSp s

theorem added_fold (lower : Text → Text) : ∀ (ts old : List Text), Added lower old ts (ts.foldl (Flags.addAbs lower) old)
  | [], _ => .nil
  | t :: ts, old => by
    rw [List.foldl_cons]
    by_cases h : lower t ∈ old.map lower
    · rw [show Flags.addAbs lower old t = old from if_pos h]
      exact .has (by simpa using h) (added_fold lower ts old)
    · rw [show Flags.addAbs lower old t = old ++ [t] from if_neg h]
      exact .new (by simpa using h) (added_fold lower ts _)

theorem remove_fold (lower : Text → Text) (toks fl : List Text) (hd : Flags.Distinct lower fl) :
    ∃ fl', toks.foldl (Flags.removeTok lower) (fl, fl.map lower) = (fl', fl'.map lower) ∧ Flags.Distinct lower fl' ∧
      ∀ f, f ∈ fl' ↔ f ∈ fl ∧ ∀ t ∈ toks, lower f ≠ lower t := by
  induction toks generalizing fl with
  | nil => exact ⟨fl, rfl, hd, by simp⟩
  | cons t ts ih =>
    obtain ⟨fl1, h1, h2, h3, -⟩ := Flags.removeTok_spec lower fl t hd
    obtain ⟨fl2, h5, h6, h7⟩ := ih fl1 h2
    refine ⟨fl2, by rw [List.foldl_cons, h1, h5], h6, fun f => ?_⟩
    rw [h7, h3]
    simp only [List.mem_cons, forall_eq_or_imp]
    tauto

theorem distinct_nodup {lower : Text → Text} {l : List Text} (h : Flags.Distinct lower l) : l.Nodup := List.Nodup.of_map _ h

theorem edited_makes {lower : Text → Text} (hlow : ∀ t, t ≠ [] → lower t ≠ lower []) {c : Word} {a : Flags.Action} (hc : actionOf c = some a)
    {old : Text} {ws : Char → Bool} {texts : List Text} (hp : Proper lower ws c (Flags.flagsOf old) texts) :
    ∃ l, Makes lower c (Flags.flagsOf old) (Flags.tokens ws texts) l ∧ Flags.joinSp l = edited lower a old (Flags.tokens ws texts) := by
  have hcl := Flags.tokens_clean hp.1
  have hm : c = .SetFlag ∧ a = .set ∨ c = .AddFlag ∧ a = .add ∨ c = .RemoveFlag ∧ a = .remove := by
    unfold actionOf at hc
    split at hc <;> simp_all
  rcases hm with ⟨rfl, rfl⟩ | ⟨rfl, rfl⟩ | ⟨rfl, rfl⟩
  · have := Flags.fold_addTok lower hlow _ hcl ([], []) [] (by simp) (by simp [Flags.flagsOf])
    refine ⟨_, .set (added_fold lower _ []), ?_⟩
    rw [show ([] : List Text) = Flags.flagsOf [] from rfl, ← this, joinSp_flagsOf]
    rfl
  · refine ⟨_, .add (added_fold lower _ _), ?_⟩
    rw [← Flags.addFlags_flags lower hlow old _ hcl, joinSp_flagsOf]
    rfl
  · have hd := hp.2 rfl
    by_cases ho : old = []
    · subst ho
      refine ⟨[], .remove (k := []) (by simp [Flags.flagsOf]) (by simp) .nil, ?_⟩
      have key : ∀ toks : List Text, (∀ t ∈ toks, t ≠ [] ∧ ' ' ∉ t) →
          toks.foldl (Flags.removeTok lower) ([[]], [lower []]) = ([[]], [lower []]) := by
        intro toks
        induction toks with
        | nil => intro _; rfl
        | cons t ts ih =>
          intro h
          rw [List.foldl_cons]
          have : Flags.removeTok lower ([[]], [lower []]) t = ([[]], [lower []]) := by
            have hne := (hlow t (h t List.mem_cons_self).1).symm
            have : (lower [] == lower t) = false := by simpa using hne
            simp [Flags.removeTok, List.findIdx?_cons, this]
          rw [this]
          exact ih fun u hu => h u (List.mem_cons_of_mem _ hu)
      simp only [edited, Flags.removeFlags, Flags.splitSp, List.map_cons, List.map_nil, key _ hcl]
      rfl
    · have hfo : Flags.flagsOf old = Flags.splitSp old := by unfold Flags.flagsOf; rw [if_neg ho]
      rw [hfo] at hd ⊢
      obtain ⟨fl, h1, h2, h3⟩ := remove_fold lower (Flags.tokens ws texts) _ hd
      have hm : ∀ f, f ∈ (Flags.splitSp old).filter (fun f => decide (f ∈ fl)) ↔ f ∈ fl := by
        intro f
        rw [List.mem_filter, decide_eq_true_iff]
        exact ⟨fun h => h.2, fun h => ⟨((h3 f).1 h).1, h⟩⟩
      refine ⟨fl, .remove (k := (Flags.splitSp old).filter fun f => decide (f ∈ fl)) (fun f => ?_) List.filter_sublist ?_, ?_⟩
      · rw [hm, h3]
        refine and_congr_right fun _ => ⟨?_, ?_⟩
        · rintro h ⟨t, ht, e⟩
          exact h t ht e
        · intro h t ht e
          exact h ⟨t, ht, e⟩
      · exact (List.perm_ext_iff_of_nodup (distinct_nodup h2) ((distinct_nodup hd).filter _)).2 fun f => (hm f).symm
      · simp only [edited, Flags.removeFlags, h1]

/-! ## Commands -/

/-- The configuration of the interpreter is that of the host. -/
structure Fits (H : Host W F N) (cfg : Vm.Cfg (Text × W) (Expr.Val F) Core.Place) (w : W) : Prop where
  vars : ∀ f, Vars.Fits (withFlags H) cfg (f, w)
  /-- no text but the empty one has the empty text as its small letters -/
  lower : ∀ t, t ≠ [] → H.lowercase t ≠ H.lowercase []

/-- A state of the interpreter and one of the script. -/
def Rep (H : Host W F N) (w : W) (s : St F) (st : Base.State (Text × W) (Expr.Val F) Core.Place) : Prop :=
  Vars.Rep H.up (s.flags, w) ⟨s.vars, s.core⟩ st

theorem new_after {H : Host W F N} {cfg : Vm.Cfg (Text × W) (Expr.Val F) Core.Place} {w : W} (hf : Fits H cfg w) {c : Word} {a : Flags.Action}
    (hc : actionOf c = some a) (vs : List (Val F)) (σ : Store F) (f old : Text) :
    ∃ r, H.newFlags a vs (σ, (f, w)) old = .str r ∧ After H (σ, (f, w)) c old vs r := by
  have hl := limited_stored (H.up.at.env (σ, (f, w))).x.flt (hf.vars f).max (.str (edited H.lowercase a old
    (Flags.tokens (H.up.at.env (σ, (f, w))).x.ws (vs.map fun v => Tests.text (H.up.at.env (σ, (f, w))).x.flt ((H.up.at.env (σ, (f, w))).eval v)))))
  change Limited _ _ _ (H.newFlags a vs (σ, (f, w)) old) at hl
  generalize H.newFlags a vs (σ, (f, w)) old = z at hl ⊢
  cases hl with
  | @str _ r h =>
    refine ⟨r, rfl, _, _, rfl, (Written.flagsIn_iff _ _ _).2 rfl, fun hp => ?_⟩
    obtain ⟨l, h1, h2⟩ := edited_makes hf.lower hc hp
    refine ⟨l, h1, ?_⟩
    rw [h2]
    exact h

theorem actionOf_some {c : Word} (h : c ∈ [Word.SetFlag, .AddFlag, .RemoveFlag]) : ∃ a, actionOf c = some a := by
  simp only [List.mem_cons, List.not_mem_nil, or_false] at h
  rcases h with rfl | rfl | rfl
  · exact ⟨_, rfl⟩
  · exact ⟨_, rfl⟩
  · exact ⟨_, rfl⟩

theorem actionOf_mem {c : Word} {a : Flags.Action} (h : actionOf c = some a) : c ∈ [Word.SetFlag, .AddFlag, .RemoveFlag] := by
  cases c <;> simp only [actionOf, reduceCtorEq] at h <;> simp

section
variable [DecidableEq N] {x : Args.Ext F} {H : Host W F N} {w : W} {t : Mime.Tree} {cfg : Vm.Cfg (Text × W) (Expr.Val F) Core.Place}
  {notV : Expr.Val F → Expr.Val F} {hnot : ∀ v, cfg.toBool (notV v) = !cfg.toBool v}

theorem command_does (hf : Fits H cfg w) {n : Script.Node F} (hr : Core.Read x n) (hc : FlagCmd H cfg n) {s : St F}
    {st : Base.State (Text × W) (Expr.Val F) Core.Place} (h : Rep H w s st) :
    ∃ s' b st', Base.command cfg st (H.act n) = some (st', b) ∧ Does H cfg w n s s' b ∧ Rep H w s' st' := by
  rcases hc with ⟨ha, c, g, rfl, hm, hp⟩ | hc
  · obtain ⟨a, hca⟩ := actionOf_some hm
    have hacc : H.up.accepts g = true := (accepts_iff _ _).2 ha
    have hw : st.view.world = (s.flags, w) := h.core.world
    have hsee : H.up.see st.view = (s.vars, (s.flags, w)) := h.core.seen
    rcases hp with ⟨vs, hp⟩ | ⟨m, vs, hp, hn⟩
    · obtain ⟨r, h1, h2⟩ := new_after hf hca vs s.vars s.flags s.flags
      have e : Base.command cfg st (H.act (.cmd c g)) =
          some ({ st with view := { st.view with world := (r, w) } }, false) := by
        simp only [Host.act, hca, hacc, if_true, Host.edit, hp, Base.command, hsee, hw, h1, Tests.text]
      refine ⟨_, _, _, e, .flags hm hp h2, ⟨⟨rfl, ?_, h.core.out, h.core.redirects, h.core.acts, h.core.edited⟩, h.slots⟩⟩
      have h3 : (H.up.see st.view).1 = s.vars := by rw [hsee]
      exact Prod.ext h3 rfl
    · obtain ⟨k, hk⟩ : ∃ k, H.vars.names.idxOf? (lower m) = some k := by
        cases hk : H.vars.names.idxOf? (lower m) with
        | none => exact absurd hn (by simpa [List.idxOf?_eq_none_iff] using hk)
        | some k => exact ⟨k, rfl⟩
      have hkl : k < H.vars.names.length := by
        rw [List.idxOf?_eq_some_iff] at hk
        exact hk.1
      have hlt : k < st.view.locals.length := Nat.lt_of_lt_of_le hkl h.slots
      obtain ⟨v, hv⟩ : ∃ v, s.vars (lower m) = some v := by
        have : (H.up.see st.view).1 (lower m) = s.vars (lower m) := by rw [hsee]
        rw [← this]
        refine ⟨st.view.locals[k], ?_⟩
        show (H.vars.names.idxOf? (lower m)).bind _ = _
        rw [hk]
        simp [hlt]
      obtain ⟨r, h1, h2⟩ := new_after hf hca vs s.vars s.flags (Tests.text (H.env (s.vars, (s.flags, w))).x.flt v)
      have e : Base.command cfg st (H.act (.cmd c g)) =
          some ({ st with view := { st.view with locals := st.view.locals.set k (.str r) } }, false) := by
        have h1' : H.newFlags a vs (s.vars, (s.flags, w)) (Tests.text (H.vars.core.env w).x.flt v) = .str r := h1
        simp only [Host.act, hca, hacc, if_true, Host.edit, hp, hk, Base.command, hsee, hv, h1']
      refine ⟨_, _, _, e, .variable hm hp hv h2, ⟨⟨hw, ?_, h.core.out, h.core.redirects, h.core.acts, h.core.edited⟩, by simpa using h.slots⟩⟩
      have h3 := see_set H.up st.view (n := lower m) hk hlt (.str r)
      rw [hsee] at h3
      exact Prod.ext h3 hw
  · have hact : H.act n = H.up.act n := by
      unfold Host.act
      split
      · rename_i c g
        split
        · rename_i a ha
          have hm := actionOf_mem ha
          obtain ⟨-, hc⟩ := hc
          split at hc
          · rename_i h'
            injection h' with h' _
            subst h'
            simp [actionOf] at ha
          · simp only [Core.Command, List.mem_cons, List.not_mem_nil, or_false] at hc hm
            rcases hm with rfl | rfl | rfl <;> simp at hc
        · rfl
      · rfl
    rw [hact]
    obtain ⟨v, b, st', h1, h2, h3⟩ := Vars.command_does (hf.vars s.flags) hr hc h
    exact ⟨_, b, st', h1, .vars h2, h3⟩

/-- The instructions do what the language says. -/
theorem models (hs : Sees H w t) (hf : Fits H cfg w) :
    Lang.Models (H.interp cfg notV hnot) (Core.Read x) (FlagTest H) (FlagCmd H cfg) (Says H w t) (Does H cfg w) (Rep H w) where
  test := by
    intro n s st hr hp h
    cases n with
    | test c g =>
      obtain ⟨b, h1, h2⟩ := test_says hs s.vars s.flags hr hp.2
      refine ⟨b, st, s, ?_, ⟨rfl, c, g, rfl, h2⟩, h⟩
      have hk : H.up.accepts g = true := (accepts_iff H.up g).2 hp.1
      have hsee : H.up.see st.view = (s.vars, (s.flags, w)) := h.core.seen
      simp [Base.atomTruth, Host.interp, Core.got, hk, hsee, h1]
    | _ => exact hp.2.elim
  cmd := fun n s st hr hc h => command_does hf hr hc h

end

/-! ## C123 -/

theorem rep_start (H : Host W F N) {cfg : Vm.Cfg (Text × W) (Expr.Val F) Core.Place} {w : W} (hf : Fits H cfg w) (mvars : Nat) (ans : Nat → Bool) :
    Rep H w (start H) (Base.initial cfg ([], w) H.vars.names.length mvars ans) := Vars.rep_start H.up (hf.vars []) mvars ans

theorem act_edit (H : Host W F N) (n : Script.Node F) (f) : H.act n ≠ .edit f := by
  unfold Host.act
  split
  · split
    · split
      · unfold Host.edit
        split
        · simp
        · split <;> simp
        · simp
      · simp
    · exact Vars.act_edit _ _ f
  · exact Vars.act_edit _ _ f

open Vm in
/-- **C123** A text with flags does what it says.  The host hands over the script that the compiler has made of a text, and answers all
events by `true` or `false`; there are no flags yet.  Then the script runs to actions as `Runs` says: each command changes the flags of the
script or those in a variable as RFC 5232 has it, tests and commands see them as they are at that moment; and, if no action after a `keep`
cancels the implicit keep and the limit of instructions is not exceeded, the host is told the deliveries in their order, then what becomes
of the message, with the flags at the end, and nothing else.

The full claim would have no condition `KeepsLast` (`Base.kept_message_lost`), would be for all scopes of variables (C22), and would say
what becomes of texts that are not flags (`Proper`; C24 and C25). -/
theorem flags_text_partial [DecidableEq N] {lx : Lex.Ext Word F} {x : Args.Ext F} {lim : Compile.Limits} {maxSize : Nat}
    {H : Host W F N} {cfg : Cfg (Text × W) (Expr.Val F) Core.Place} {notV : Expr.Val F → Expr.Val F}
    {hnot : ∀ v, cfg.toBool (notV v) = !cfg.toBool v} {w : W} {t : Mime.Tree}
    {src : Vm.Script (Text × W) (Expr.Val F) Core.Place → Whole.Prog F} {n : Vm.Name} {s : Vm.Script (Text × W) (Expr.Val F) Core.Place} {r m}
    (hS : Sees H w t) (hF : Fits H cfg w) (hE : ∀ v, cfg.isEmpty v = true → v = cfg.empty) (hV : s.numVars = H.vars.names.length)
    (hh : Hist cfg (Ctx.new ([], w)) (.input (.script n s) :: r) m) (ha : Accepted s) (hA : Base.Answers (Source.io r))
    (hC : .output (.error .cpuLimit) ∉ Source.io r) (hs : Whole.FromText lx x lim maxSize (H.interp cfg notV hnot) src s)
    (hreg : ∀ n s, cfg.registered n = some s → Whole.FromText lx x lim maxSize (H.interp cfg notV hnot) src s)
    (hvar : Flagged H cfg (src s)) :
    ∃ st stopped, Runs H cfg w t (src s) (start H) st stopped ∧ (Base.KeepsLast st.core.acts →
      (∀ o, .output o ∈ Source.io r → o = .none ∨ ∃ e, o = .event e) ∧
      ∃ l, Core.Finally (withFlags H).core (st.flags, w) st.core.acts l ∧ Base.told (Source.io r) <+: Base.sent st.core.acts ++ l ∧
        (.output .none ∈ Source.io r → Base.told (Source.io r) = Base.sent st.core.acts ++ l)) := by
  obtain ⟨text, ops, h1, -, -⟩ := hs.compiled
  obtain ⟨ans, hQ⟩ := Base.answered_exists hA
  have h0 := rep_start H hF s.numMatchVars ans
  rw [← hV] at h0
  have hread : ∀ k ∈ (src s).toks, Lang.TokIn (Core.Read x) k := fun k hk => by
    have := Core.structure_read h1 k hk
    cases k <;> exact this
  obtain ⟨st, b, bst, h2, h3, h4⟩ := Lang.block_runs (models (x := x) (notV := notV) (hnot := hnot) hS hF) (src s) hread hvar h0
  refine ⟨st, b, h3, fun hk => ?_⟩
  have ho : Base.outcome (H.interp cfg notV hnot) (src s) ([], w) s.numVars s.numMatchVars ans = some bst := by
    unfold Base.outcome
    rw [h2]
    rfl
  have hu := Base.outcome_untouched (fun a f => act_edit H a f) ho
  rw [← h4.core.acts] at hk ⊢
  obtain ⟨h5, l, h6, h7⟩ := Base.base_text_partial hE hh ha hA hQ hC hs hreg ho hk hu.upToDate
  refine ⟨h5, l, ⟨fun fl hfl => ?_, h6.discard, h6.other⟩, h7⟩
  rw [hu.last h6 hfl, h4.core.world, (hF.vars st.flags).core.flags]

end Sieve.FlagLang
