import Verif.EditLangSpec
import Verif.MailLangProps

/-!
# C126: scripts that change header fields, from the text to what the host is told
-/

namespace Sieve.EditLang

open Sieve.Args Sieve.Fields Sieve.Vars
open Sieve.FlagLang (Text)

variable {W V F N : Type} [DecidableEq F]

/-! ## Whether the message changes -/

theorem adds_iff {env : Written.Env F N} {o : Written.Editing N} {i : Fields.AddHeader F} :
    adds env o i = true ↔ ∃ n, Written.NewName env o i.name n := by
  unfold adds Written.NewName
  simp only [Bool.and_eq_true, Bool.not_eq_true', List.isEmpty_eq_false_iff]
  constructor
  · rintro ⟨h1, h2⟩
    split at h2
    · rename_i n hn
      exact ⟨n, _, _, rfl, rfl, h1, hn, by simpa using h2⟩
    · cases h2
  · rintro ⟨n, s, t, rfl, rfl, h1, h2, h3⟩
    refine ⟨h1, ?_⟩
    change env.headerName ((Written.value env i.name).filter _) = _ at h2
    simp [h2, h3]

theorem finds_iff [DecidableEq N] {env : Written.Env F N} {o : Written.Editing N} {i : Fields.DeleteHeader F} {g : Got F} {t : Mime.Tree}
    {fuel : Nat} (ok : env.x.Ok) (hc : Compares g i.matchType i.comparator) (hx : IndexIs g i.index)
    (ha : Stores g [.AnyChild] Flag false i.anyChild) (ht : Mime.Represents env.parts t) (hpart : env.part = t.id)
    (hf : t.preorder.length < fuel) :
    finds env o fuel i = true ↔ ∃ (id : Nat) (p : Mime.Part N Tests.Field) (pos : Nat), env.parts[id]? = some p ∧
      Written.Deleted env o g t i.name i.patterns id p.headers pos := by
  unfold finds
  cases hn : env.headerName (Written.value env i.name) with
  | none =>
    simp only [Bool.false_eq_true, false_iff]
    rintro ⟨id, p, pos, -, s, name, rfl, h1, -⟩
    change env.headerName (Written.value env i.name) = _ at h1
    rw [hn] at h1
    cases h1
  | some name =>
    simp only
    by_cases hp : o.prot name = true
    · rw [if_pos hp]
      simp only [Bool.false_eq_true, false_iff]
      rintro ⟨id, p, pos, -, s, name', rfl, h1, h2, -⟩
      change env.headerName (Written.value env i.name) = _ at h1
      rw [hn] at h1
      injection h1 with h1
      rw [← h1, hp] at h2
      cases h2
    · rw [if_neg hp]
      obtain ⟨found, h1, h2⟩ := Tests.found_iff env.parts t ht [name] i.index i.anyChild fuel hf
      rw [hpart, h1]
      simp only [Bool.not_eq_true', List.isEmpty_eq_false_iff, ne_eq, List.filter_eq_nil_iff, not_forall, not_not]
      constructor
      · rintro ⟨h, hh, hd⟩
        obtain ⟨id, hid, p, h3, name', hname, pos, h4, h5⟩ := (h2 h.1).1 (List.mem_map_of_mem hh)
        rw [List.mem_singleton] at hname
        subst hname
        exact ⟨id, p, pos, h3, _, name', rfl, hn, by simpa using hp, (Written.searched_iff ha t id).1 hid, _, hx, h5, _, h4,
          (Written.deletes_iff ok hc _).1 hd⟩
      · rintro ⟨id, p, pos, h3, s, name', rfl, h4, h5, h6, index, h7, h8, hd, h9, h10⟩
        change env.headerName (Written.value env i.name) = _ at h4
        rw [hn] at h4
        injection h4 with h4
        subst h4
        rw [Written.index_unique h7 hx] at h8
        obtain ⟨h, hh, rfl⟩ := List.mem_map.1 ((h2 hd).2 ⟨id, (Written.searched_iff ha t id).2 h6, p, h3, name, by simp, pos, h9, h8⟩)
        exact ⟨h, hh, (Written.deletes_iff ok hc _).2 h10⟩

/-! ## Commands in a state in which the message has changed -/

section
variable {W' V' P : Type} {cfg : Vm.Cfg W' V' P}

/-- Instructions that need the message as it is now. -/
def NeedsIt : Vm.Instr W' V' P → Prop
  | .keep _ | .fileInto _ _ _ | .redirect _ _ _ => True
  | _ => False

/-- Other commands do not care. -/
theorem command_other {i : Vm.Instr W' V' P} (hi : ¬ NeedsIt i) (he : ∀ f, i ≠ .edit f) {st st' : Base.State W' V' P} {b : Bool}
    (h : Base.command cfg { st with edited := false } i = some (st', b)) :
    Base.command cfg st i = some ({ st' with edited := st.edited }, b) := by
  cases i with
  | keep | fileInto | redirect => exact absurd trivial hi
  | edit f => exact absurd rfl (he f)
  | assign t f =>
    cases t <;> simp only [Base.command, Option.some.injEq, Prod.mk.injEq, reduceCtorEq] at h ⊢
    all_goals obtain ⟨rfl, rfl⟩ := h; exact ⟨rfl, rfl⟩
  | editFlags t f =>
    cases t <;> simp only [Base.command, Option.some.injEq, Prod.mk.injEq, reduceCtorEq] at h ⊢
    all_goals obtain ⟨rfl, rfl⟩ := h; exact ⟨rfl, rfl⟩
  | notify f fcc =>
    simp only [Base.command] at h ⊢
    cases hf : f st.view with
    | none =>
      simp only [hf, Option.some.injEq, Prod.mk.injEq] at h ⊢
      obtain ⟨rfl, rfl⟩ := h
      exact ⟨rfl, rfl⟩
    | some r =>
      simp only [hf] at h ⊢
      cases hm : r.method with
      | other =>
        simp only [hm, Option.some.injEq, Prod.mk.injEq] at h ⊢
        obtain ⟨rfl, rfl⟩ := h
        exact ⟨rfl, rfl⟩
      | mailto m =>
        simp only [hm] at h ⊢
        by_cases hl : st.view.numOut < cfg.maxOut
        · rw [if_pos hl] at h ⊢
          cases m <;> (simp only [Option.some.injEq, Prod.mk.injEq] at h ⊢; obtain ⟨rfl, rfl⟩ := h; exact ⟨rfl, rfl⟩)
        · rw [if_neg hl] at h ⊢
          simp only [Option.some.injEq, Prod.mk.injEq] at h ⊢
          obtain ⟨rfl, rfl⟩ := h
          exact ⟨rfl, rfl⟩
  | require caps =>
    simp only [Base.command] at h ⊢
    split at h
    · rename_i hc
      rw [if_pos hc]
      simp only [Option.some.injEq, Prod.mk.injEq] at h ⊢
      obtain ⟨rfl, rfl⟩ := h
      exact ⟨rfl, rfl⟩
    · cases h
  | clear idx num mv =>
    simp only [Base.command] at h ⊢
    split at h
    · rename_i hc
      rw [if_pos hc]
      simp only [Option.some.injEq, Prod.mk.injEq] at h ⊢
      obtain ⟨rfl, rfl⟩ := h
      exact ⟨rfl, rfl⟩
    · cases h
  | _ =>
    simp only [Base.command, Option.some.injEq, Prod.mk.injEq, reduceCtorEq] at h ⊢
    all_goals first
      | (obtain ⟨rfl, rfl⟩ := h; exact ⟨rfl, rfl⟩)

theorem writeDown_view (st : Base.State W' V' P) : (Base.writeDown cfg st).view = st.view := by
  unfold Base.writeDown
  split <;> rfl

theorem writeDown_redirects (st : Base.State W' V' P) : (Base.writeDown cfg st).redirects = st.redirects := by
  unfold Base.writeDown
  split <;> rfl

theorem writeDown_edited (st : Base.State W' V' P) : (Base.writeDown cfg st).edited = false := by
  unfold Base.writeDown
  split
  · rfl
  · rename_i h
    simpa using h

theorem writeDown_twice (st : Base.State W' V' P) : Base.writeDown cfg (Base.writeDown cfg st) = Base.writeDown cfg st :=
  Base.writeDown_same (writeDown_edited st)

/-- The message is written down and something done with it, or nothing is done. -/
theorem command_needs {i : Vm.Instr W' V' P} (hi : NeedsIt i) (st : Base.State W' V' P) :
    (Base.command cfg st i = Base.command cfg (Base.writeDown cfg st) i ∧
      ∀ st' b, Base.command cfg (Base.writeDown cfg st) i = some (st', b) → st'.acts ≠ (Base.writeDown cfg st).acts) ∨
    Base.command cfg st i = some (st, false) ∧ Base.command cfg { st with edited := false } i = some ({ st with edited := false }, false) := by
  cases i with
  | keep f =>
    refine .inl ⟨by simp only [Base.command, writeDown_twice, writeDown_view], ?_⟩
    intro st' b h
    simp only [Base.command, writeDown_twice, Option.some.injEq, Prod.mk.injEq] at h
    obtain ⟨rfl, rfl⟩ := h
    simp [Base.andDoes]
  | fileInto c d f =>
    refine .inl ⟨by simp only [Base.command, writeDown_twice, writeDown_view], ?_⟩
    intro st' b h
    simp only [Base.command, writeDown_twice, Option.some.injEq, Prod.mk.injEq] at h
    obtain ⟨rfl, rfl⟩ := h
    simp [Base.andDoes]
  | redirect l c f =>
    simp only [Base.command]
    cases ha : f st.view with
    | none => exact .inr ⟨rfl, rfl⟩
    | some a =>
      simp only [writeDown_view, ha, writeDown_twice, writeDown_redirects]
      have e : Base.MayRedirect cfg (Base.writeDown cfg st) l a = Base.MayRedirect cfg st l a := by
        simp only [Base.MayRedirect, writeDown_view, writeDown_redirects]
      have e' : Base.MayRedirect cfg { st with edited := false } l a = Base.MayRedirect cfg st l a := rfl
      rw [e, e']
      by_cases hm : Base.MayRedirect cfg st l a = true
      · simp only [if_pos hm]
        refine .inl ⟨trivial, ?_⟩
        intro st' b h
        simp only [Option.some.injEq, Prod.mk.injEq] at h
        obtain ⟨rfl, rfl⟩ := h
        simp [Base.andDoes]
      · simp only [if_neg hm]
        exact .inr ⟨trivial, trivial⟩
  | _ => exact hi.elim

/-- Tests do not care. -/
theorem atomTruth_edited {A T E : Type} {I : Source.Interp cfg A T E} {st v : Base.State W' V' P} {n : T} {b : Bool}
    (h : Base.atomTruth I { st with edited := false } (.leaf n) = some (b, v)) :
    Base.atomTruth I st (.leaf n) = some (b, { v with edited := st.edited }) := by
  simp only [Base.atomTruth] at h ⊢
  split at h
  · simp only [Option.some.injEq, Prod.mk.injEq] at h ⊢
    obtain ⟨rfl, rfl⟩ := h
    exact ⟨rfl, rfl⟩
  · simp only [Option.some.injEq, Prod.mk.injEq] at h ⊢
    obtain ⟨rfl, rfl⟩ := h
    exact ⟨rfl, rfl⟩
  · cases h

end

/-! ## The language -/

/-- The same parts with other header fields. -/
def SameParts (ps ps' : List (Mime.Part N Tests.Field)) : Prop :=
  ps'.length = ps.length ∧ ∀ (id : Nat) (p : Mime.Part N Tests.Field), ps[id]? = some p → ∃ hs, ps'[id]? = some ⟨hs, p.body⟩

/-- The messages `Good` have the parts `t` and fit the interpreter, and they remain so with other header fields. -/
structure Holds (H : Host W F N) (cfg : Vm.Cfg (Text × W) (Expr.Val F) Core.Place) (t : Mime.Tree) (Good : W → Prop) : Prop where
  sees : ∀ w, Good w → MailLang.Sees H.mail w t
  fits : ∀ w, Good w → FlagLang.Fits H.mail.asks.flags cfg w
  good : ∀ w ps, Good w → SameParts (H.mail.asks.flags.vars.core.env w).parts ps → Good (H.put w ps)
  seen : ∀ w ps, Good w → SameParts (H.mail.asks.flags.vars.core.env w).parts ps →
    H.mail.asks.flags.vars.core.env (H.put w ps) = { H.mail.asks.flags.vars.core.env w with parts := ps }
  nodup : t.preorder.Nodup

section
variable [DecidableEq N] {x : Args.Ext F} {H : Host W F N} {t : Mime.Tree} {Good : W → Prop}
  {cfg : Vm.Cfg (Text × W) (Expr.Val F) Core.Place} {notV : Expr.Val F → Expr.Val F} {hnot : ∀ v, cfg.toBool (notV v) = !cfg.toBool v}

/-- A state of the interpreter and one of the script. -/
structure Rep (H : Host W F N) (Good : W → Prop) (ans : Nat → Bool) (s : St W F) (st : Base.State (Text × W) (Expr.Val F) Core.Place) : Prop where
  good : Good s.message
  mail : MailLang.Rep H.mail ans s.message s.mail { st with edited := false }
  edited : st.edited = s.edited

omit [DecidableEq N] in
theorem rep_unique {ans : Nat → Bool} {w : W} {s s' : FlagLang.St F} {st : Base.State (Text × W) (Expr.Val F) Core.Place}
    (h : MailLang.Rep H.mail ans w s st) (h' : MailLang.Rep H.mail ans w s' st) : s = s' := by
  have h1 : H.mail.asks.flags.up.see st.view = (s.vars, (s.flags, w)) := h.1.core.seen
  have h2 : H.mail.asks.flags.up.see st.view = (s'.vars, (s'.flags, w)) := h'.1.core.seen
  have h3 : st.acts = s.core.acts := h.1.core.acts
  have h4 : st.acts = s'.core.acts := h'.1.core.acts
  have h5 : st.redirects = s.core.sent := h.1.core.redirects
  have h6 : st.redirects = s'.core.sent := h'.1.core.redirects
  rw [h1] at h2
  rw [h3] at h4
  rw [h5] at h6
  obtain ⟨v, f, c, a⟩ := s
  obtain ⟨v', f', c', a'⟩ := s'
  simp only [Prod.mk.injEq, and_true] at h2
  obtain ⟨rfl, rfl⟩ := h2
  simp only at h4 h6
  rw [h4, h6]

/-- The message is written down. -/
theorem rep_written {ans : Nat → Bool} {s : St W F} {st : Base.State (Text × W) (Expr.Val F) Core.Place} (h : Rep H Good ans s st) :
    MailLang.Rep H.mail ans s.message (written cfg s) (Base.writeDown cfg st) := by
  have hm := h.mail
  have hw : st.view.world = (s.mail.flags, s.message) := hm.1.core.world
  have ha : st.acts = s.mail.core.acts := hm.1.core.acts
  unfold written Base.writeDown
  rw [← h.edited]
  cases he : st.edited with
  | false =>
    simp only [Bool.false_eq_true, if_false]
    have e : ({ st with edited := false } : Base.State (Text × W) (Expr.Val F) Core.Place) = st := by
      rw [← he]
    rw [e] at hm
    exact hm
  | true =>
    simp only [if_true]
    have := MailLang.rep_does hm [.version (Base.made s.mail.core.acts + 1) (cfg.render (s.mail.flags, s.message))] 0 rfl
    rw [hw, ha]
    have e : ({ st with edited := false } : Base.State (Text × W) (Expr.Val F) Core.Place).acts = s.mail.core.acts := ha
    rw [e] at this
    exact this

omit [DecidableEq N] in
/-- The message changes. -/
theorem rep_put {ans : Nat → Bool} {s : St W F} {st : Base.State (Text × W) (Expr.Val F) Core.Place} (h : Rep H Good ans s st) {w : W}
    (hw : Good w) : Rep H Good ans ⟨s.mail, w, true⟩
      { st with view := { st.view with world := (s.mail.flags, w) }, edited := st.edited || true } := by
  have hsee : H.mail.asks.flags.up.see st.view = (s.mail.vars, (s.mail.flags, s.message)) := h.mail.1.core.seen
  have h3 : (H.mail.asks.flags.up.see st.view).1 = s.mail.vars := by rw [hsee]
  exact ⟨hw, ⟨⟨⟨rfl, Prod.ext h3 rfl, h.mail.1.core.out, h.mail.1.core.redirects, h.mail.1.core.acts, rfl⟩, h.mail.1.slots⟩, h.mail.2⟩,
    by simp⟩

omit [DecidableEq N] in
theorem rep_same {ans : Nat → Bool} {s : St W F} {st : Base.State (Text × W) (Expr.Val F) Core.Place} (h : Rep H Good ans s st) :
    ({ st with view := { st.view with world := (s.mail.flags, s.message) }, edited := st.edited || false } : Base.State (Text × W) (Expr.Val F) Core.Place) =
      st := by
  have hw : st.view.world = (s.mail.flags, s.message) := h.mail.1.core.world
  rw [← hw, Bool.or_false]

/-- `addheader`. -/
theorem adds_does (hh : Holds H cfg t Good) {ans : Nat → Bool} {g : Got F} (hr : Core.Read x (.cmd .AddHeader g)) {s : St W F}
    {st : Base.State (Text × W) (Expr.Val F) Core.Place} (h : Rep H Good ans s st) :
    ∃ s' st', Base.command cfg st (H.addheader g) = some (st', false) ∧ Does H cfg t (.cmd .AddHeader g) s s' false ∧ Rep H Good ans s' st' := by
  obtain ⟨e, has, ts, r, he, hr⟩ := hr
  obtain ⟨i, nm, v, h1, h2, h3⟩ := Written.addheader_written (N := N) x has he hr
  have hnm : nm = i.name := by
    unfold AddHeader.of at h1
    rw [h2] at h1
    simp only [Option.some.injEq] at h1
    rw [← h1]
  have hS := (hh.sees s.message h.good).asks.core
  have hsee : H.mail.asks.flags.up.see st.view = (s.mail.vars, (s.mail.flags, s.message)) := h.mail.1.core.seen
  obtain ⟨p, hp⟩ : ∃ p, (look H s).parts[(look H s).part]? = some p := by
    show ∃ p, (H.mail.asks.flags.vars.core.env s.message).parts[(H.mail.asks.flags.vars.core.env s.message).part]? = some p
    rw [hS.root]
    cases hS.parts with
    | leaf k _ => exact ⟨_, k⟩
    | multi k _ _ => exact ⟨_, k⟩
  obtain ⟨h4, h5⟩ := h3 (look H s) H.editing p hp
  have hcmd : Base.command cfg st (H.addheader g) = some ({ st with
      view := { st.view with world := (H.change (s.mail.flags, s.message) (adds (look H s) H.editing i) (Written.addheader (look H s) H.editing i)).1 }
      edited := st.edited || (H.change (s.mail.flags, s.message) (adds (look H s) H.editing i) (Written.addheader (look H s) H.editing i)).2 },
      false) := by
    simp only [Host.addheader, h1, Base.command, hsee]
    rfl
  by_cases hadd : ∃ n, Written.NewName (look H s) H.editing nm n
  · have ha : adds (look H s) H.editing i = true := adds_iff.2 (hnm ▸ hadd)
    obtain ⟨n, hn⟩ := hadd
    obtain ⟨ps, tx, tt, hs, k1, k2, k3, k4, k5, k6, k7⟩ := h5 n hn
    have hsame : SameParts (H.mail.asks.flags.vars.core.env s.message).parts ps := by
      refine ⟨k2, fun id q hq => ?_⟩
      by_cases hid : id = (look H s).part
      · subst hid
        have : some p = some q := hp.symm.trans hq
        injection this with this
        subst this
        exact ⟨_, k4⟩
      · exact ⟨q.headers, (k3 id hid).trans hq⟩
    refine ⟨_, _, hcmd, .adds h2 hn hp k2 k3 k4 k5 k6 k7 ⟨rfl, hh.seen _ _ h.good hsame⟩, ?_⟩
    simp only [Host.change, ha, if_true, k1]
    exact rep_put h (hh.good _ _ h.good hsame)
  · have ha : adds (look H s) H.editing i = false := by
      rw [Bool.eq_false_iff]
      intro k
      exact hadd (hnm ▸ adds_iff.1 k)
    refine ⟨_, _, hcmd, .addsNot h2 (not_exists.1 hadd), ?_⟩
    simp only [Host.change, ha, Bool.false_eq_true, if_false]
    rw [rep_same h]
    exact h

/-- `deleteheader`. -/
theorem removes_does (hh : Holds H cfg t Good) {ans : Nat → Bool} {g : Got F} (hr : Core.Read x (.cmd .DeleteHeader g)) {s : St W F}
    {st : Base.State (Text × W) (Expr.Val F) Core.Place} (h : Rep H Good ans s st) :
    ∃ s' st', Base.command cfg st (H.deleteheader g) = some (st', false) ∧ Does H cfg t (.cmd .DeleteHeader g) s s' false ∧
      Rep H Good ans s' st' := by
  obtain ⟨e, has, ts, r, he, hr⟩ := hr
  obtain ⟨i, nm, ks, h1, h2, h3⟩ := Written.deleteheader_written (N := N) x has he hr
  obtain ⟨i', f1, f2, f3, f4, f5⟩ := deleteheader_fields_partial x has he hr
  rw [h1] at f1
  injection f1 with f1
  subst f1
  have hnm : nm = i.name ∧ ks = i.patterns := by
    rcases h2 with ⟨h2, rfl⟩ | h2 <;> rcases f2 with ⟨f2, f6⟩ | f2 <;> rw [h2] at f2 <;> simp at f2 <;> simp_all
  obtain ⟨rfl, rfl⟩ := hnm
  have hS := (hh.sees s.message h.good).asks.core
  have hsee : H.mail.asks.flags.up.see st.view = (s.mail.vars, (s.mail.flags, s.message)) := h.mail.1.core.seen
  obtain ⟨ps, k1, k2, k3⟩ := h3 (look H s) H.editing t (H.mail.asks.flags.vars.core.fuel s.message) hS.ok hS.parts hS.root hh.nodup hS.fuel
  have hfind := finds_iff (env := look H s) (o := H.editing) hS.ok f3 f4 f5 hS.parts hS.root hS.fuel
  have hcmd : Base.command cfg st (H.deleteheader g) = some ({ st with
      view := { st.view with world := (H.change (s.mail.flags, s.message) (finds (look H s) H.editing (H.mail.asks.flags.vars.core.fuel s.message) i)
        (Written.deleteheader (look H s) H.editing (H.mail.asks.flags.vars.core.fuel s.message) i)).1 }
      edited := st.edited || (H.change (s.mail.flags, s.message) (finds (look H s) H.editing (H.mail.asks.flags.vars.core.fuel s.message) i)
        (Written.deleteheader (look H s) H.editing (H.mail.asks.flags.vars.core.fuel s.message) i)).2 },
      false) := by
    simp only [Host.deleteheader, h1, Base.command, hsee]
    rfl
  by_cases hrem : Removes H t g i.name i.patterns s
  · have ha := hfind.2 hrem
    have hsame : SameParts (H.mail.asks.flags.vars.core.env s.message).parts ps := ⟨k2, fun id q hq => ⟨_, k3 id q hq⟩⟩
    refine ⟨_, _, hcmd, .removes h2 hrem k2 k3 ⟨rfl, hh.seen _ _ h.good hsame⟩, ?_⟩
    simp only [Host.change, ha, if_true, k1]
    exact rep_put h (hh.good _ _ h.good hsame)
  · have ha : finds (look H s) H.editing (H.mail.asks.flags.vars.core.fuel s.message) i = false := by
      rw [Bool.eq_false_iff]
      intro k
      exact hrem (hfind.1 k)
    refine ⟨_, _, hcmd, .removesNot h2 hrem, ?_⟩
    simp only [Host.change, ha, Bool.false_eq_true, if_false]
    rw [rep_same h]
    exact h

omit [DecidableEq N] in
/-- Which commands need the message. -/
theorem needs_iff (H : MailLang.Host W F N) (maxOut maxReceived : Nat) (n : Script.Node F) :
    NeedsIt (H.act maxOut maxReceived n) → Delivers n := by
  have core : ∀ {S : Type} (C : Core.Host S F N) (see : Vm.View (Text × W) (Expr.Val F) → S) (n : Script.Node F),
      NeedsIt (C.action see n) → Delivers n := by
    intro S C see n
    unfold Core.Host.action
    split
    · exact fun h => h.elim
    · exact fun _ => ⟨_, .inl rfl⟩
    · exact fun h => h.elim
    · exact fun h => h.elim
    · exact fun _ => ⟨_, .inr (.inl rfl)⟩
    · exact fun _ => ⟨_, .inr (.inr rfl)⟩
    · unfold Core.rejection
      split <;> exact fun h => h.elim
    · unfold Core.rejection
      split <;> exact fun h => h.elim
    · exact fun h => h.elim
  have vars : ∀ n, NeedsIt (H.asks.flags.up.act n) → Delivers n := by
    intro n
    unfold Vars.Host.act
    split
    · split
      · split
        · split <;> exact fun h => h.elim
        · exact fun h => h.elim
      · exact core _ _ _
    · exact fun h => h.elim
  unfold MailLang.Host.act
  split
  · split
    · unfold MailLang.Host.notify
      split <;> exact fun h => h.elim
    · exact fun h => h.elim
  · split
    · unfold MailLang.Host.vacation
      split <;> exact fun h => h.elim
    · exact fun h => h.elim
  · unfold FlagLang.Host.act
    split
    · split
      · split
        · unfold FlagLang.Host.edit
          split
          · exact fun h => h.elim
          · split <;> exact fun h => h.elim
          · exact fun h => h.elim
        · exact fun h => h.elim
      · exact vars _
    · exact vars _

omit [DecidableEq N] in
theorem needs_of (H : MailLang.Host W F N) (maxOut maxReceived : Nat) {n : Script.Node F} (hd : Delivers n) :
    NeedsIt (H.act maxOut maxReceived n) ∨ H.act maxOut maxReceived n = .invalid .nowhere := by
  obtain ⟨g, rfl | rfl | rfl⟩ := hd
  · simp only [MailLang.Host.act, FlagLang.Host.act, FlagLang.actionOf, Vars.Host.act, Core.Host.action]
    split
    · exact .inl trivial
    · exact .inr rfl
  · simp only [MailLang.Host.act, FlagLang.Host.act, FlagLang.actionOf, Vars.Host.act, Core.Host.action]
    split
    · split
      · exact .inl trivial
      · exact .inr rfl
    · exact .inr rfl
  · simp only [MailLang.Host.act, FlagLang.Host.act, FlagLang.actionOf, Vars.Host.act, Core.Host.action]
    split
    · split
      · exact .inl trivial
      · exact .inr rfl
    · exact .inr rfl

theorem state_edited (st : Base.State (Text × W) (Expr.Val F) Core.Place) (h : st.edited = false) (b : Bool) :
    ({ ({ st with edited := b } : Base.State (Text × W) (Expr.Val F) Core.Place) with edited := false } : Base.State (Text × W) (Expr.Val F) Core.Place) =
      st := by
  rw [← h]

/-- The commands of `MailLang`. -/
theorem mail_does (notV : Expr.Val F → Expr.Val F) (hnot : ∀ v, cfg.toBool (notV v) = !cfg.toBool v) (hh : Holds H cfg t Good) {ans : Nat → Bool} {n : Script.Node F} (hr : Core.Read x n) (hc : MailLang.MailCmd H.mail cfg n)
    {s : St W F} {st : Base.State (Text × W) (Expr.Val F) Core.Place} (h : Rep H Good ans s st) :
    ∃ s' b st', Base.command cfg st (H.mail.act cfg.maxOut cfg.maxReceived n) = some (st', b) ∧ Does H cfg t n s s' b ∧ Rep H Good ans s' st' := by
  have hM := MailLang.models (x := x) (notV := notV) (hnot := hnot) (hh.sees _ h.good) (hh.fits _ h.good) ans
  by_cases hd : Delivers n
  · rcases needs_of H.mail cfg.maxOut cfg.maxReceived hd with hi | hi
    · rcases command_needs (cfg := cfg) hi st with ⟨h1, h2⟩ | ⟨h1, h2⟩
      · obtain ⟨m, b, st', h3, h4, h5⟩ := hM.cmd n _ _ hr hc (rep_written h)
        have he : st'.edited = false := h5.1.core.edited
        have hne : m.core.acts ≠ (written cfg s).core.acts := by
          have k := h2 st' b h3
          have k1 : st'.acts = m.core.acts := h5.1.core.acts
          have k2 : (Base.writeDown cfg st).acts = (written cfg s).core.acts := (rep_written (cfg := cfg) h).1.core.acts
          rwa [k1, k2] at k
        exact ⟨_, b, st', h1.trans h3, .delivers hd h4 hne, h.good, by simpa only [← he] using h5, he⟩
      · obtain ⟨m, b, st', h3, h4, h5⟩ := hM.cmd n _ _ hr hc h.mail
        have h3' := h2.symm.trans h3
        simp only [Option.some.injEq, Prod.mk.injEq] at h3'
        obtain ⟨rfl, rfl⟩ := h3'
        have := rep_unique h.mail h5
        subst this
        exact ⟨s, false, st, h1, .stays hd h4, h⟩
    · obtain ⟨m, b, st', h3, -, -⟩ := hM.cmd n _ _ hr hc h.mail
      change Base.command cfg _ (H.mail.act cfg.maxOut cfg.maxReceived n) = _ at h3
      rw [hi] at h3
      cases h3
  · obtain ⟨m, b, st', h3, h4, h5⟩ := hM.cmd n _ _ hr hc h.mail
    have he : st'.edited = false := h5.1.core.edited
    refine ⟨_, b, _, command_other (fun k => hd (needs_iff _ _ _ _ k)) (MailLang.act_edit _ _ _ n) h3, .other hd h4, h.good, ?_, h.edited⟩
    rw [state_edited st' he]
    exact h5

/-- The instructions do what the language says. -/
theorem models (hh : Holds H cfg t Good) (ans : Nat → Bool) :
    Lang.Models (H.interp cfg notV hnot) (Core.Read x) (MailLang.MailTest H.mail) (EditCmd H cfg) (Says H cfg ans t) (Does H cfg t)
      (Rep H Good ans) where
  test := by
    intro n s st hr hp h
    obtain ⟨b, v, m, h1, h2, h3⟩ := (MailLang.models (x := x) (notV := notV) (hnot := hnot) (hh.sees _ h.good) (hh.fits _ h.good) ans).test
      n _ _ hr hp h.mail
    have he : v.edited = false := h3.1.core.edited
    have h1' := atomTruth_edited h1
    refine ⟨b, _, _, h1', ⟨m, h2, rfl⟩, h.good, ?_, h.edited⟩
    rw [state_edited v he]
    exact h3
  cmd := by
    intro n s st hr hc h
    show ∃ s' b st', Base.command cfg st (H.act cfg.maxOut cfg.maxReceived n) = _ ∧ _
    rcases hc with hc | ⟨ha, g, rfl | rfl⟩
    · have e : H.act cfg.maxOut cfg.maxReceived n = H.mail.act cfg.maxOut cfg.maxReceived n := by
        unfold Host.act
        split
        · exfalso
          rcases hc with (⟨-, c, g, h1, h2, -⟩ | ⟨-, h⟩) | ⟨-, g, h1 | h1⟩
          · injection h1 with h1
            subst h1
            simp at h2
          · simp [Core.Command] at h
          · cases h1
          · cases h1
        · exfalso
          rcases hc with (⟨-, c, g, h1, h2, -⟩ | ⟨-, h⟩) | ⟨-, g, h1 | h1⟩
          · injection h1 with h1
            subst h1
            simp at h2
          · simp [Core.Command] at h
          · cases h1
          · cases h1
        · rfl
      rw [e]
      exact mail_does notV hnot hh hr hc h
    · obtain ⟨s', st', h1, h2, h3⟩ := adds_does hh hr h
      have ha : H.mail.asks.flags.up.accepts g = true := (accepts_iff _ _).2 ha
      exact ⟨s', false, st', by simp only [Host.act, ha, if_true]; exact h1, h2, h3⟩
    · obtain ⟨s', st', h1, h2, h3⟩ := removes_does hh hr h
      have ha : H.mail.asks.flags.up.accepts g = true := (accepts_iff _ _).2 ha
      exact ⟨s', false, st', by simp only [Host.act, ha, if_true]; exact h1, h2, h3⟩

end

/-! ## C126 -/

/-- What becomes of the message. -/
theorem finally_of {H : Host W F N} {Good : W → Prop} {cfg : Vm.Cfg (Text × W) (Expr.Val F) Core.Place} {t : Mime.Tree} (hh : Holds H cfg t Good)
    {ans : Nat → Bool} {s : St W F} {st : Base.State (Text × W) (Expr.Val F) Core.Place} (h : Rep H Good ans s st) {l}
    (hl : Base.Last cfg st l) : Finally cfg s l := by
  have ha : st.acts = s.mail.core.acts := h.mail.1.core.acts
  have hw : st.view.world = (s.mail.flags, s.message) := h.mail.1.core.world
  have hfl : ∀ fl, Base.keptFlags cfg st fl = keptFlags s fl := by
    intro fl
    have : cfg.globalFlags st.view.world = (Flags.flagsOf s.mail.flags).map String.ofList := by
      rw [hw]
      exact (((hh.fits _ h.good).vars s.mail.flags).core.flags)
    simp only [Base.keptFlags, keptFlags, this]
  refine ⟨fun l' hk => ?_, by rw [← ha]; exact hl.discard, by rw [← ha]; exact hl.other⟩
  cases hk with
  | explicit h1 h2 =>
    rw [← hfl]
    exact hl.keep _ (.explicit (ha.trans h1) h2)
  | implicit h1 h2 =>
    rw [← hfl, ← ha]
    rw [← ha] at h1
    exact hl.keep _ (.implicit h1 (h.edited.trans h2))
  | changed h1 h2 =>
    rw [← hfl, ← ha, ← hw]
    rw [← ha] at h1
    exact hl.keep _ (.changed h1 (h.edited.trans h2))

open Vm in
/-- **C126** A text that changes header fields does what it says.  The host hands over the script that the compiler has made of a text, and
answers all events by `true` or `false`, the first, second, … question by `ans 0`, `ans 1`, ….  Then the script runs to actions as `Runs`
says: `addheader` and `deleteheader` change the fields that RFC 5293 has their arguments say at that moment (C120), all commands and tests
afterwards see the message as it is then, and before the message is kept, filed or redirected the host is given it if it was changed since
the host was last given it.  If no action after a `keep` cancels the implicit keep, the message is up to date (`UpToDate`) and the limit of
instructions is not exceeded, the host is told the messages and deliveries in their order, each with the number of the message as it was
then, then what becomes of the message, and nothing else.

The full claim would have no conditions `KeepsLast` (`Base.kept_message_lost`) and `UpToDate` (`Base.kept_message_changed`,
`Base.changed_message_lost`), and none on the replies of `vacation` that `MailLang.ReplyIs` leaves open. -/
theorem edits_text_partial [DecidableEq N] {lx : Lex.Ext Word F} {x : Args.Ext F} {lim : Compile.Limits} {maxSize : Nat}
    {H : Host W F N} {cfg : Cfg (Text × W) (Expr.Val F) Core.Place} {notV : Expr.Val F → Expr.Val F}
    {hnot : ∀ v, cfg.toBool (notV v) = !cfg.toBool v} {w : W} {t : Mime.Tree} {Good : W → Prop}
    {src : Vm.Script (Text × W) (Expr.Val F) Core.Place → Whole.Prog F} {n : Vm.Name} {s : Vm.Script (Text × W) (Expr.Val F) Core.Place} {r m}
    (hH : Holds H cfg t Good) (hw : Good w) (hE : ∀ v, cfg.isEmpty v = true → v = cfg.empty)
    (hV : s.numVars = H.mail.asks.flags.vars.names.length)
    (hh : Hist cfg (Ctx.new ([], w)) (.input (.script n s) :: r) m) (ha : Accepted s) (hA : Base.Answers (Source.io r))
    {ans : Nat → Bool} (hQ : Base.Answered ans (Source.io r))
    (hC : .output (.error .cpuLimit) ∉ Source.io r) (hs : Whole.FromText lx x lim maxSize (H.interp cfg notV hnot) src s)
    (hreg : ∀ n s, cfg.registered n = some s → Whole.FromText lx x lim maxSize (H.interp cfg notV hnot) src s)
    (hedit : Editing H cfg (src s)) :
    ∃ st stopped, Runs H cfg ans t (src s) (start H w) st stopped ∧ (Base.KeepsLast st.mail.core.acts → UpToDate st →
      (∀ o, .output o ∈ Source.io r → o = .none ∨ ∃ e, o = .event e) ∧
      ∃ l, Finally cfg st l ∧ Base.told (Source.io r) <+: Base.sent st.mail.core.acts ++ l ∧
        (.output .none ∈ Source.io r → Base.told (Source.io r) = Base.sent st.mail.core.acts ++ l)) := by
  obtain ⟨text, ops, h1, -, -⟩ := hs.compiled
  have h0 : Rep H Good ans (start H w) (Base.initial cfg ([], w) H.mail.asks.flags.vars.names.length s.numMatchVars ans) :=
    ⟨hw, ⟨FlagLang.rep_start H.mail.asks.flags (hH.fits w hw) s.numMatchVars ans, rfl⟩, rfl⟩
  rw [← hV] at h0
  have hread : ∀ k ∈ (src s).toks, Lang.TokIn (Core.Read x) k := fun k hk => by
    have := Core.structure_read h1 k hk
    cases k <;> exact this
  obtain ⟨st, b, bst, h2, h3, h4⟩ := Lang.block_runs (models (x := x) (notV := notV) (hnot := hnot) hH ans) (src s) hread hedit h0
  refine ⟨st, b, h3, fun hk hu => ?_⟩
  have ho : Base.outcome (H.interp cfg notV hnot) (src s) ([], w) s.numVars s.numMatchVars ans = some bst := by
    unfold Base.outcome
    rw [h2]
    rfl
  have hacts : bst.acts = st.mail.core.acts := h4.mail.1.core.acts
  have hu' : Base.UpToDate bst := by
    refine ⟨fun fl hfl => ?_, fun hx => ?_⟩
    · rw [hacts] at hfl
      exact h4.edited.trans (hu.explicit fl hfl)
    · rw [hacts] at hx ⊢
      rw [h4.edited]
      exact hu.implicit hx
  rw [← hacts] at hk ⊢
  obtain ⟨h5, l, h6, h7⟩ := Base.base_text_partial hE hh ha hA hQ hC hs hreg ho hk hu'
  exact ⟨h5, l, finally_of hH h4 h6, h7⟩

end Sieve.EditLang
