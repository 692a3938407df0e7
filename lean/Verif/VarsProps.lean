import Verif.StringProps
import Verif.VarsSpec
import Verif.CoreProps

/-!
# C122: scripts with variables, from the text to what the host is told
-/

namespace Sieve.Vars

open Sieve.Args Sieve.Fields Sieve.Compile

variable {W V F N : Type} [DecidableEq F]

/-! ## Arguments -/

theorem readable_iff (H : Host W F N) (v : Val F) : H.readable v = true ↔ ∀ s, v = .var s → Str.tokenize H.strs true s ≠ none := by
  cases v <;> simp [Host.readable, Option.isSome_iff_ne_none]

theorem readableArg_iff (H : Host W F N) (a : Arg F) : H.readableArg a = true ↔ Reads H a := by
  cases a with
  | val v => simp only [Host.readableArg, Reads, readable_iff]
  | vals vs =>
    simp only [Host.readableArg, Reads, List.all_eq_true, readable_iff]
    exact ⟨fun h s hs => h _ hs s rfl, fun h v hv s e => h s (e ▸ hv)⟩
  | pair a b => simp only [Host.readableArg, Reads, Bool.and_eq_true, readable_iff]
  | _ => simp [Host.readableArg, Reads]

theorem accepts_iff (H : Host W F N) (g : Got F) : H.accepts g = true ↔ Accepts H g := by
  simp only [Host.accepts, Accepts, Bool.and_eq_true, List.all_eq_true, readableArg_iff]

/-! ## Tests -/

theorem value_eval (H : Host W F N) (q : Store F × W) : value H q = H.eval q.1 q.2 := by
  funext v
  cases v <;> rfl

theorem seen_at (H : Host W F N) : seen H = H.at := by
  unfold seen Host.at
  simp only [value_eval]

theorem test_says [DecidableEq N] {x : Args.Ext F} {H : Host W F N} {q : Store F × W} {t : Mime.Tree} (hs : Core.Sees H.at q t) {c : Word}
    {g : Got F} (hr : Core.Read x (.test c g)) (hc : Test (.test c g)) :
    ∃ b, H.test q (.test c g) = some b ∧ (b = true ↔ IsTrue (H.at.env q) (H.core.size q.2) t c g) := by
  by_cases h : c = .String
  · subst h
    obtain ⟨hg, ss, k, hp⟩ := hc
    obtain ⟨e, has, ts, r, he, hr⟩ := hr
    obtain ⟨i, ss', ks, h1, h2, h3⟩ := Written.string_written_partial (N := N) x has he hr
    rw [hp] at h2
    simp only [List.cons.injEq, Arg.vals.injEq, and_true] at h2
    obtain ⟨rfl, rfl⟩ := h2
    obtain ⟨b, caps, h4, h5⟩ := h3 (H.at.env q) false 0 k hs.ok hg rfl (fun h => absurd rfl h)
    refine ⟨b, ?_, h5.trans ⟨fun h => ⟨_, _, hp, h⟩, ?_⟩⟩
    · simp [Host.test, h1, h4, Core.boolOf]
    · rintro ⟨ss', k', h6, h7⟩
      rw [hp] at h6
      simp only [List.cons.injEq, Arg.vals.injEq, and_true] at h6
      obtain ⟨rfl, rfl⟩ := h6
      exact h7
  · have e1 : H.test q (.test c g) = H.at.test q (.test c g) := by
      unfold Host.test
      split
      · rename_i h'
        injection h' with h' _
        exact absurd h' h
      · rfl
    have e2 : IsTrue (H.at.env q) (H.core.size q.2) t c g = Core.IsTrue (H.at.env q) (H.core.size q.2) t c g := by
      unfold IsTrue
      split
      · exact absurd rfl h
      · rfl
    have e3 : Core.Test (.test c g) := by
      unfold Test at hc
      split at hc
      · rename_i h'
        injection h' with h' _
        exact absurd h' h
      · exact hc
    rw [e1, e2]
    exact Core.test_says hs hr e3

/-- The message that the tests see has the parts `t`. -/
abbrev Sees (H : Host W F N) (w : W) (t : Mime.Tree) : Prop := Core.Sees H.core w t

theorem Sees.at {H : Host W F N} {w : W} {t : Mime.Tree} (h : Sees H w t) (σ : Store F) : Core.Sees H.at (σ, w) t :=
  ⟨h.ok, h.parts, h.root, h.fuel⟩

section
variable [DecidableEq N] {x : Args.Ext F} {H : Host W F N} {w : W} {t : Mime.Tree} {cfg : Vm.Cfg W (Expr.Val F) Core.Place}
  {notV : Expr.Val F → Expr.Val F} {hnot : ∀ v, cfg.toBool (notV v) = !cfg.toBool v}

mutual
theorem truth_says (hs : Sees H w t) : ∀ (e : TestE (Script.Node F) (Script.Node F) (List UInt8)), (∀ k ∈ e.toks, Core.TokRead x k) →
    VarTestE H e → ∀ (v : Base.State W (Expr.Val F) Core.Place) (σ : Store F), H.see v.view = (σ, w) →
      ∃ b, Base.truth (H.interp cfg notV hnot) e v = some (b, v) ∧ (b = true ↔ HoldsIn H w t σ e)
  | .atom a, hr, hc, v, σ, hv => by
    cases a with
    | tru => exact ⟨true, rfl, by simp [HoldsIn, Core.Holds]⟩
    | fls => exact ⟨false, rfl, by simp [HoldsIn, Core.Holds]⟩
    | leaf n =>
      have hc : Accepts H (Core.got n) ∧ Test n := hc
      have hr : Core.Read x n := hr (.leaf n) (by simp [TestE.toks, Atom.tok])
      cases n with
      | test c g =>
        obtain ⟨b, h1, h2⟩ := test_says (hs.at σ) hr hc.2
        refine ⟨b, ?_, h2⟩
        have hk : H.accepts g = true := (accepts_iff H g).2 hc.1
        simp [Base.truth, Base.atomTruth, Host.interp, Core.got, hk, hv, h1]
      | _ => exact hc.2.elim
    | _ => exact hc.elim
  | .not e, hr, hc, v, σ, hv => by
    obtain ⟨b, h1, h2⟩ := truth_says hs e (fun k hk => hr k (by simp [TestE.toks, hk])) hc v σ hv
    refine ⟨!b, by simp [Base.truth, h1], ?_⟩
    show _ ↔ ¬ HoldsIn H w t σ e
    rw [← h2]
    simp
  | .any l, hr, hc, v, σ, hv => by
    obtain ⟨b, h1, h2⟩ := (truths_says hs l (fun k hk => hr k (by simp [TestE.toks, hk])) hc v σ hv).1
    exact ⟨b, h1, h2⟩
  | .all l, hr, hc, v, σ, hv => by
    obtain ⟨b, h1, h2⟩ := (truths_says hs l (fun k hk => hr k (by simp [TestE.toks, hk])) hc v σ hv).2
    exact ⟨b, h1, h2⟩
theorem truths_says (hs : Sees H w t) : ∀ (l : Tests (Script.Node F) (Script.Node F) (List UInt8)), (∀ k ∈ l.toks, Core.TokRead x k) →
    VarTests H l → ∀ (v : Base.State W (Expr.Val F) Core.Place) (σ : Store F), H.see v.view = (σ, w) →
      (∃ b, Base.truths (H.interp cfg notV hnot) false l v = some (b, v) ∧
        (b = true ↔ Core.Some (IsTrue ((seen H).env (σ, w)) (H.core.size w) t) l)) ∧
      (∃ b, Base.truths (H.interp cfg notV hnot) true l v = some (b, v) ∧
        (b = true ↔ Core.All (IsTrue ((seen H).env (σ, w)) (H.core.size w) t) l))
  | .one e, hr, hc, v, σ, hv => by
    obtain ⟨b, h1, h2⟩ := truth_says hs e (fun k hk => hr k (by simp [Tests.toks, hk])) hc v σ hv
    exact ⟨⟨b, h1, h2⟩, ⟨b, h1, h2⟩⟩
  | .cons e l, hr, hc, v, σ, hv => by
    obtain ⟨b, h1, h2⟩ := truth_says hs e (fun k hk => hr k (by simp [Tests.toks, hk])) hc.1 v σ hv
    obtain ⟨⟨b1, h3, h4⟩, ⟨b2, h5, h6⟩⟩ := truths_says hs l (fun k hk => hr k (by simp [Tests.toks, hk])) hc.2 v σ hv
    simp only [Base.truths, h1, Core.Some, Core.All]
    unfold HoldsIn at h2
    cases b
    · have : ¬ Core.Holds (IsTrue ((seen H).env (σ, w)) (H.core.size w) t) e := fun h => by cases h2.2 h
      exact ⟨⟨b1, by simp [h3], by simp [h4, this]⟩, ⟨false, by simp, by simp [this]⟩⟩
    · have := h2.1 rfl
      exact ⟨⟨true, by simp, by simp [this]⟩, ⟨b2, by simp [h5], by simp [h6, this]⟩⟩
end
end

/-! ## `set` -/

theorem insertMod_perm (m : SetVar.Modifier) : ∀ l, (insertMod m l).Perm (m :: l)
  | [] => .refl _
  | a :: l => by
    unfold insertMod
    split
    · exact ((insertMod_perm m l).cons a).trans (.swap m a l)
    · exact .refl _

theorem sortMods_perm : ∀ l, (sortMods l).Perm l
  | [] => .refl _
  | m :: l => (insertMod_perm m _).trans ((sortMods_perm l).cons m)

theorem insertMod_sorted (m : SetVar.Modifier) : ∀ l : List SetVar.Modifier, l.Pairwise (fun a b => b.order ≤ a.order) →
    (insertMod m l).Pairwise fun a b => b.order ≤ a.order
  | [], _ => by simp [insertMod]
  | a :: l, h => by
    rw [List.pairwise_cons] at h
    unfold insertMod
    split
    · rename_i hm
      rw [List.pairwise_cons]
      refine ⟨fun b hb => ?_, insertMod_sorted m l h.2⟩
      rcases List.mem_cons.1 ((insertMod_perm m l).mem_iff.1 hb) with rfl | hb
      · exact hm
      · exact h.1 b hb
    · rename_i hm
      rw [List.pairwise_cons, List.pairwise_cons]
      refine ⟨fun b hb => ?_, h⟩
      rcases List.mem_cons.1 hb with rfl | hb
      · omega
      · have := h.1 b hb
        omega

theorem sortMods_sorted : ∀ l, (sortMods l).Pairwise fun a b => b.order ≤ a.order
  | [] => .nil
  | m :: l => insertMod_sorted m _ (sortMods_sorted l)

/-- The modifiers are sorted as `C44` has it. -/
theorem sortMods_sortedBy (l : List SetVar.Modifier) : SetVar.SortedBy l (sortMods (SetVar.collect [] l)) :=
  ⟨sortMods_perm _, sortMods_sorted _⟩

theorem asks_iff (g : Got F) (hf : ∀ p ∈ g.tags, p.1 ≠ .Replace) (m : SetVar.Modifier) :
    m ∈ g.tags.filterMap (fun p => modOf p.1) ↔ Asks g m := by
  simp only [List.mem_filterMap]
  constructor
  · rintro ⟨⟨w, a⟩, hp, h⟩
    have hu : Uses g w := ⟨a, hp⟩
    cases w <;> simp only [modOf, Option.some.injEq, reduceCtorEq] at h <;> subst h
    all_goals first
      | exact .lower hu
      | exact .upper hu
      | exact .lowerFirst hu
      | exact .upperFirst hu
      | exact .quoteWildcard hu
      | exact .quoteRegex hu
      | exact .encodeUrl hu
      | exact .length hu
  · intro h
    cases h <;> (rename_i h; obtain ⟨a, ha⟩ := h; exact ⟨_, ha, rfl⟩)

theorem changed_iff (A : Expr.Flt F) (x : SetVar.Ext) (max : Nat) : ∀ (ms : List SetVar.Modifier) (v r : Expr.Val F),
    Changed A x max ms v r ↔ r = applyAll A x max ms v
  | [], v, r => ⟨fun h => by cases h; rfl, fun h => h ▸ .nil⟩
  | m :: ms, v, r => by
    constructor
    · intro h
      cases h with
      | cons h => exact (changed_iff A x max ms _ r).1 h
    · intro h
      exact .cons ((changed_iff A x max ms _ r).2 h)

mutual
theorem takes_len : ∀ v : Expr.Val F, Takes v (len v)
  | .str s => by rw [len]; exact .str
  | .int n => by rw [len]; exact .int
  | .flt f => by rw [len]; exact .flt
  | .arr l => by rw [len]; exact takes_lens l
theorem takes_lens : ∀ l : List (Expr.Val F), Takes (.arr l) (lens l)
  | [] => by rw [lens]; exact .nil
  | v :: l => by rw [lens]; exact .cons (takes_len v) (takes_lens l)
end

theorem takes_unique {v : Expr.Val F} {a b : Nat} (ha : Takes v a) (hb : Takes v b) : a = b := by
  induction ha generalizing b with
  | cons _ _ ih1 ih2 => cases hb with | cons h1 h2 => rw [ih1 h1, ih2 h2]
  | _ => cases hb; rfl

theorem limited_stored (A : Expr.Flt F) {max : Nat} (hm : 2 ≤ max) (v : Expr.Val F) : Limited A max v (stored A max v) := by
  unfold stored
  cases v with
  | str s =>
    by_cases h : max < len (.str s : Expr.Val F)
    · rw [if_pos h]
      exact .str (SetVar.truncGo_spec max [] s (by simp [byteLen]))
    · rw [if_neg h]
      refine .str ⟨List.prefix_rfl, by unfold len at h; omega, fun _ h _ => h⟩
  | int n =>
    rw [if_neg (by unfold len; omega)]
    exact .int
  | flt f =>
    rw [if_neg (by unfold len; omega)]
    exact .flt
  | arr l =>
    by_cases h : max < len (.arr l : Expr.Val F)
    · rw [if_pos h]
      exact .long (takes_len _) h (SetVar.truncGo_spec max [] _ (by simp [byteLen]))
    · rw [if_neg h]
      exact .arr (takes_len _) (by omega)

theorem noReplace {g : Got F} (h : ¬ Uses g .Replace) : ∀ p ∈ g.tags, p.1 ≠ .Replace := by
  rintro ⟨w, a⟩ hp rfl
  exact h ⟨a, hp⟩

theorem set_of {g : Got F} {n : List UInt8} {v : Val F} (hp : g.pos = [.text n, .val v]) (hr : ¬ Uses g .Replace) :
    Set.of g = some ⟨sortMods (SetVar.collect [] (g.tags.filterMap fun p => modOf p.1)), lower n, v⟩ := by
  have : (g.tags.any fun p => p.1 == .Replace) = false := by
    rw [List.any_eq_false]
    intro p hp
    simpa using noReplace hr p hp
  unfold Set.of
  rw [hp]
  simp [this]

theorem set_makes {H : Host W F N} (hm : 2 ≤ H.max) {g : Got F} {n : List UInt8} {v : Val F} (hr : ¬ Uses g .Replace) (q : Store F × W) :
    SetTo (H.core.env q.2).x.flt H.mod H.max g (value H q v)
      (H.newValue ⟨sortMods (SetVar.collect [] (g.tags.filterMap fun p => modOf p.1)), lower n, v⟩ q) := by
  have hperm := sortMods_perm (SetVar.collect [] (g.tags.filterMap fun p => modOf p.1))
  refine ⟨_, _, fun m => ?_, ?_, (sortMods_sorted _).imp SetVar.order_precedence, (changed_iff _ _ _ _ _ _).2 rfl, limited_stored _ hm _⟩
  · rw [hperm.mem_iff, SetVar.mem_collect, asks_iff g (noReplace hr)]
    simp
  · rw [hperm.nodup_iff]
    refine SetVar.collect_nodup _ _ (by simp) fun f r h => ?_
    cases (asks_iff g (noReplace hr) _).1 h

/-! ## Commands -/

/-- The configuration of the interpreter is that of the host. -/
structure Fits (H : Host W F N) (cfg : Vm.Cfg W (Expr.Val F) Core.Place) (w : W) : Prop where
  core : Core.Fits H.core cfg w w
  empty : cfg.empty = .str []
  /-- there is room for a number -/
  max : 2 ≤ H.max

theorem Fits.at {H : Host W F N} {cfg : Vm.Cfg W (Expr.Val F) Core.Place} {w : W} (h : Fits H cfg w) (σ : Store F) :
    Core.Fits H.at cfg w (σ, w) := ⟨h.core.own, h.core.flags, h.core.received⟩

/-- A state of the interpreter and one of the script. -/
structure Rep (H : Host W F N) (w : W) (s : St F) (st : Base.State W (Expr.Val F) Core.Place) : Prop where
  core : Core.Rep H.see w (s.vars, w) s.core st
  slots : H.names.length ≤ st.view.locals.length

theorem see_set (H : Host W F N) (v : Vm.View W (Expr.Val F)) {n : Name} {k : Nat} (hk : H.names.idxOf? n = some k)
    (hl : k < v.locals.length) (r : Expr.Val F) :
    (H.see { v with locals := v.locals.set k r }).1 = fun m => if m = n then some r else (H.see v).1 m := by
  funext m
  simp only [Host.see]
  by_cases h : m = n
  · subst h
    simp [hk, List.getElem?_set_self hl]
  · rw [if_neg h]
    cases hj : H.names.idxOf? m with
    | none => rfl
    | some j =>
      have : k ≠ j := by
        rintro rfl
        rw [List.idxOf?_eq_some_iff] at hk hj
        obtain ⟨_, h1, _⟩ := hk
        obtain ⟨_, h2, _⟩ := hj
        exact h (h2.symm.trans h1)
      simp [List.getElem?_set_ne this]

section
variable [DecidableEq N] {x : Args.Ext F} {H : Host W F N} {w : W} {t : Mime.Tree} {cfg : Vm.Cfg W (Expr.Val F) Core.Place}
  {notV : Expr.Val F → Expr.Val F} {hnot : ∀ v, cfg.toBool (notV v) = !cfg.toBool v}

theorem act_core {n : Script.Node F} (h : ∀ g, n ≠ .cmd .Set g) (ha : Accepts H (Core.got n)) : H.act n = H.at.action H.see n := by
  unfold Host.act
  rw [if_pos ((accepts_iff H _).2 ha)]
  split
  · exact absurd rfl (h _)
  · rfl

theorem command_does (hf : Fits H cfg w) {n : Script.Node F} (hr : Core.Read x n) (hc : VarCmd H cfg n) {s : St F}
    {st : Base.State W (Expr.Val F) Core.Place} (h : Rep H w s st) :
    ∃ s' b st', Base.command cfg st (H.act n) = some (st', b) ∧ Does H cfg w n s s' b ∧ Rep H w s' st' := by
  obtain ⟨ha, hc⟩ := hc
  by_cases hn : ∃ g, n = .cmd .Set g
  · obtain ⟨g, rfl⟩ := hn
    obtain ⟨hr, n, v, hp, hm⟩ := hc
    obtain ⟨k, hk⟩ : ∃ k, H.names.idxOf? (lower n) = some k := by
      cases hk : H.names.idxOf? (lower n) with
      | none => exact absurd hm (by simpa [List.idxOf?_eq_none_iff] using hk)
      | some k => exact ⟨k, rfl⟩
    have hkl : k < H.names.length := by
      rw [List.idxOf?_eq_some_iff] at hk
      exact hk.1
    simp only [Host.act, if_pos ((accepts_iff H _).2 ha), set_of hp hr, hk, Base.command]
    refine ⟨_, _, _, rfl, .set hp (set_makes (n := n) (v := v) hf.max hr (s.vars, w)), ⟨⟨h.core.world, ?_, h.core.out, h.core.redirects, h.core.acts, h.core.edited⟩, ?_⟩⟩
    · have h1 := see_set H st.view hk (Nat.lt_of_lt_of_le hkl h.slots)
        (H.newValue ⟨sortMods (SetVar.collect [] (g.tags.filterMap fun p => modOf p.1)), lower n, v⟩ (H.see st.view))
      rw [h.core.seen] at h1
      refine Prod.ext ?_ h.core.world
      rw [h.core.seen]
      exact h1
    · simpa using h.slots
  · have hn : ∀ g, n ≠ .cmd .Set g := fun g e => hn ⟨g, e⟩
    have hc : Core.Command (seen H) cfg n := by
      split at hc
      · exact absurd rfl (hn _)
      · exact hc
    rw [act_core hn ha]
    obtain ⟨c, b, st', h1, h2, h3, h4⟩ := Core.action_does (fun _ _ => rfl) (hf.at s.vars) hr hc h.core
    exact ⟨_, b, st', h1, .core h2, ⟨h3, h4 ▸ h.slots⟩⟩

theorem commands_do (hf : Fits H cfg w) : ∀ (l : List (Script.Node F)), (∀ n ∈ l, Core.Read x n) → (∀ n ∈ l, VarCmd H cfg n) →
    ∀ {s : St F} {st : Base.State W (Expr.Val F) Core.Place}, Rep H w s st →
      ∃ s' b st', Base.commands (H.interp cfg notV hnot) l st = some (st', b) ∧ DoesAll H cfg w l s s' b ∧ Rep H w s' st'
  | [], _, _, s, st, h => ⟨s, false, st, rfl, .nil, h⟩
  | n :: l, hr, hc, s, st, h => by
    obtain ⟨m, b, st1, h1, h2, h3⟩ := command_does hf (hr n List.mem_cons_self) (hc n List.mem_cons_self) h
    have h1' : Base.command cfg st ((H.interp cfg notV hnot).act n) = some (st1, b) := h1
    simp only [Base.commands, h1']
    cases b
    · obtain ⟨s', b, st', h4, h5, h6⟩ := commands_do hf l (fun n hn => hr n (List.mem_cons_of_mem _ hn))
        (fun n hn => hc n (List.mem_cons_of_mem _ hn)) h3
      exact ⟨s', b, st', h4, .cons h2 h5, h6⟩
    · exact ⟨m, true, st1, rfl, .ends h2, h3⟩

/-! ## Scripts -/

mutual
theorem stmt_runs (hs : Sees H w t) (hf : Fits H cfg w) : ∀ (c : Stmt (Script.Node F) (Script.Node F) (List UInt8)),
    (∀ k ∈ c.toks, Core.TokRead x k) → VarStmt H cfg c → ∀ {s : St F} {st : Base.State W (Expr.Val F) Core.Place}, Rep H w s st →
      ∃ s' b st', Base.stmt (H.interp cfg notV hnot) c st = some (st', b) ∧ RunStmt H cfg w t c s s' b ∧ Rep H w s' st'
  | .act l, hr, hc, s, st, h => by
    obtain ⟨s', b, st', h1, h2, h3⟩ := commands_do (notV := notV) (hnot := hnot) hf l (hr (.act l) (by simp [Stmt.toks])) hc h
    exact ⟨s', b, st', h1, .act h2, h3⟩
  | .cond c, hr, hc, s, st, h => by
    obtain ⟨s', b, st', h1, h2, h3⟩ := chain_runs hs hf true c hr hc h
    exact ⟨s', b, st', h1, .cond h2, h3⟩
  | .eval _, _, hc, _, _, _ => hc.elim
  | .vac _ _, _, hc, _, _, _ => hc.elim
  | .loop _ _ _, _, hc, _, _, _ => hc.elim
  | .parts _ _ _, _, hc, _, _, _ => hc.elim
  | .brk _, _, hc, _, _, _ => hc.elim
  | .cont, _, hc, _, _, _ => hc.elim
  | .ret, _, hc, _, _, _ => hc.elim
theorem block_runs (hs : Sees H w t) (hf : Fits H cfg w) : ∀ (l : Blk (Script.Node F) (Script.Node F) (List UInt8)),
    (∀ k ∈ l.toks, Core.TokRead x k) → VarBlk H cfg l → ∀ {s : St F} {st : Base.State W (Expr.Val F) Core.Place}, Rep H w s st →
      ∃ s' b st', Base.block (H.interp cfg notV hnot) l st = some (st', b) ∧ RunBlk H cfg w t l s s' b ∧ Rep H w s' st'
  | .nil, _, _, s, st, h => ⟨s, false, st, rfl, .nil, h⟩
  | .cons c l, hr, hc, s, st, h => by
    obtain ⟨m, b, st1, h1, h2, h3⟩ := stmt_runs hs hf c (fun k hk => hr k (by simp [Blk.toks, hk])) hc.1 h
    simp only [Base.block, h1]
    cases b
    · obtain ⟨s', b, st', h4, h5, h6⟩ := block_runs hs hf l (fun k hk => hr k (by simp [Blk.toks, hk])) hc.2 h3
      exact ⟨s', b, st', h4, .cons h2 h5, h6⟩
    · exact ⟨m, true, st1, rfl, .ends h2, h3⟩
theorem chain_runs (hs : Sees H w t) (hf : Fits H cfg w) (first : Bool) : ∀ (c : Chain (Script.Node F) (Script.Node F) (List UInt8)),
    (∀ k ∈ c.toks first, Core.TokRead x k) → VarChain H cfg c → ∀ {s : St F} {st : Base.State W (Expr.Val F) Core.Place}, Rep H w s st →
      ∃ s' b st', Base.chain (H.interp cfg notV hnot) c st = some (st', b) ∧ RunChain H cfg w t c s s' b ∧ Rep H w s' st'
  | .one e b cl, hr, hc, s, st, h => by
    obtain ⟨hc1, hc2, rfl⟩ := hc
    obtain ⟨v, h1, h2⟩ := truth_says (cfg := cfg) (notV := notV) (hnot := hnot) hs e
      (fun k hk => hr k (by simp [Chain.toks, hk])) hc1 st s.vars h.core.seen
    simp only [Base.chain, h1]
    cases v
    · exact ⟨s, false, st, rfl, .oneNot (fun h => by cases h2.2 h), h⟩
    · obtain ⟨s', f, st', h3, h4, h5⟩ := block_runs hs hf b (fun k hk => hr k (by simp [Chain.toks, hk])) hc2 h
      refine ⟨s', f, st', ?_, .one (h2.1 rfl) h4, h5⟩
      simp only [h3]
      cases f <;> rfl
  | .els e b cl c cl', hr, hc, s, st, h => by
    obtain ⟨hc1, hc2, hc3, rfl, rfl⟩ := hc
    obtain ⟨v, h1, h2⟩ := truth_says (cfg := cfg) (notV := notV) (hnot := hnot) hs e
      (fun k hk => hr k (by simp [Chain.toks, hk])) hc1 st s.vars h.core.seen
    simp only [Base.chain, h1]
    cases v
    · obtain ⟨s', f, st', h3, h4, h5⟩ := block_runs hs hf c (fun k hk => hr k (by simp [Chain.toks, hk])) hc3 h
      refine ⟨s', f, st', ?_, .elsNot (fun h => by cases h2.2 h) h4, h5⟩
      simp only [h3]
      cases f <;> rfl
    · obtain ⟨s', f, st', h3, h4, h5⟩ := block_runs hs hf b (fun k hk => hr k (by simp [Chain.toks, hk])) hc2 h
      refine ⟨s', f, st', ?_, .els (h2.1 rfl) h4, h5⟩
      simp only [h3]
      cases f <;> rfl
  | .elif e b cl c, hr, hc, s, st, h => by
    obtain ⟨hc1, hc2, hc3, rfl⟩ := hc
    obtain ⟨v, h1, h2⟩ := truth_says (cfg := cfg) (notV := notV) (hnot := hnot) hs e
      (fun k hk => hr k (by simp [Chain.toks, hk])) hc1 st s.vars h.core.seen
    simp only [Base.chain, h1]
    cases v
    · obtain ⟨s', f, st', h3, h4, h5⟩ := chain_runs hs hf false c (fun k hk => hr k (by simp [Chain.toks, hk])) hc3 h
      exact ⟨s', f, st', h3, .elifNot (fun h => by cases h2.2 h) h4, h5⟩
    · obtain ⟨s', f, st', h3, h4, h5⟩ := block_runs hs hf b (fun k hk => hr k (by simp [Chain.toks, hk])) hc2 h
      refine ⟨s', f, st', ?_, .elif (h2.1 rfl) h4, h5⟩
      simp only [h3]
      cases f <;> rfl
end

end

/-! ## C122 -/

theorem act_edit (H : Host W F N) (n : Script.Node F) (f) : H.act n ≠ .edit f := by
  unfold Host.act
  split
  · split
    · split
      · split <;> simp
      · simp
    · exact Core.action_edit _ _ _ f
  · simp

theorem rep_start (H : Host W F N) {cfg : Vm.Cfg W (Expr.Val F) Core.Place} {w : W} (hf : Fits H cfg w) (mvars : Nat) (ans : Nat → Bool) :
    Rep H w (start H) (Base.initial cfg w H.names.length mvars ans) := by
  refine ⟨⟨rfl, ?_, rfl, rfl, rfl, rfl⟩, by simp [Base.initial]⟩
  refine Prod.ext ?_ rfl
  funext n
  simp only [Host.see, start, Base.initial]
  by_cases h : n ∈ H.names
  · rw [if_pos h]
    cases hk : H.names.idxOf? n with
    | none => exact absurd h (by simpa [List.idxOf?_eq_none_iff] using hk)
    | some k =>
      rw [List.idxOf?_eq_some_iff] at hk
      obtain ⟨hk, -⟩ := hk
      simp [List.getElem?_replicate, hk, hf.empty]
  · rw [if_neg h, List.idxOf?_eq_none_iff.2 h]
    rfl

open Vm in
/-- **C122** A text with variables does what it says.  The host hands over the script that the compiler has made of a text, and answers
all events by `true` or `false`.  Then the script runs to actions as `RunBlk` says: variables have the values that `set` gives them, all
arguments and tests are read with the values of the moment; and, if no action after a `keep` cancels the implicit keep and the limit of
instructions is not exceeded, the host is told the deliveries in their order, then what becomes of the message, and nothing else.

The full claim would have no condition `KeepsLast` (`Base.kept_message_lost`), and would be for all scopes of variables (C22). -/
theorem vars_text_partial [DecidableEq N] {lx : Lex.Ext Word F} {x : Args.Ext F} {lim : Limits} {maxSize : Nat}
    {H : Host W F N} {cfg : Cfg W (Expr.Val F) Core.Place} {notV : Expr.Val F → Expr.Val F}
    {hnot : ∀ v, cfg.toBool (notV v) = !cfg.toBool v} {w : W} {t : Mime.Tree}
    {src : Vm.Script W (Expr.Val F) Core.Place → Whole.Prog F} {n : Vm.Name} {s : Vm.Script W (Expr.Val F) Core.Place} {r m}
    (hS : Sees H w t) (hF : Fits H cfg w) (hE : ∀ v, cfg.isEmpty v = true → v = cfg.empty) (hV : s.numVars = H.names.length)
    (hh : Hist cfg (Ctx.new w) (.input (.script n s) :: r) m) (ha : Accepted s) (hA : Base.Answers (Source.io r))
    (hC : .output (.error .cpuLimit) ∉ Source.io r) (hs : Whole.FromText lx x lim maxSize (H.interp cfg notV hnot) src s)
    (hreg : ∀ n s, cfg.registered n = some s → Whole.FromText lx x lim maxSize (H.interp cfg notV hnot) src s)
    (hvar : VarBlk H cfg (src s)) :
    ∃ st stopped, RunBlk H cfg w t (src s) (start H) st stopped ∧ (Base.KeepsLast st.core.acts →
      (∀ o, .output o ∈ Source.io r → o = .none ∨ ∃ e, o = .event e) ∧
      ∃ l, Core.Finally H.core w st.core.acts l ∧ Base.told (Source.io r) <+: Base.sent st.core.acts ++ l ∧
        (.output .none ∈ Source.io r → Base.told (Source.io r) = Base.sent st.core.acts ++ l)) := by
  obtain ⟨text, ops, h1, -, -⟩ := hs.compiled
  obtain ⟨ans, hQ⟩ := Base.answered_exists hA
  have h0 := rep_start H hF s.numMatchVars ans
  rw [← hV] at h0
  obtain ⟨st, b, bst, h2, h3, h4⟩ := block_runs (notV := notV) (hnot := hnot) hS hF (src s) (Core.structure_read h1) hvar h0
  refine ⟨st, b, h3, fun hk => ?_⟩
  have ho : Base.outcome (H.interp cfg notV hnot) (src s) w s.numVars s.numMatchVars ans = some bst := by
    unfold Base.outcome
    rw [h2]
    rfl
  have hu := Base.outcome_untouched (fun a f => act_edit H a f) ho
  rw [← h4.core.acts] at hk ⊢
  obtain ⟨h5, l, h6, h7⟩ := Base.base_text_partial hE hh ha hA hQ hC hs hreg ho hk hu.upToDate
  refine ⟨h5, l, ⟨fun fl hfl => ?_, h6.discard, h6.other⟩, h7⟩
  rw [hu.last h6 hfl, h4.core.world, hF.core.flags]

/-! ## Strings -/

/-- The host's conversions. -/
structure Prints (H : Host W F N) (w : W) : Prop where
  chars : ∀ s, H.chars ((H.core.env w).x.utf8 s) = s
  int : ∀ n, H.chars (H.showInt n) = (H.core.env w).x.flt.showInt n
  flt : ∀ f, H.chars (H.showFlt f) = (H.core.env w).x.flt.showFlt f
  nil : H.chars [] = []

theorem reference_iff (H : Host W F N) (w : List UInt8) (o : Option (List (Str.Piece Name))) :
    Str.Reference H.strs w o ↔ Refers H.names w o := by
  unfold Str.Reference Refers
  refine exists_congr fun n => and_congr_right fun _ => and_congr_right fun _ => ?_
  unfold Str.Ext.resolve
  by_cases h1 : ∀ c ∈ n, 48 ≤ c ∧ c ≤ 57
  · rw [if_pos h1]
    have : ¬ ∃ c ∈ n, ¬ (48 ≤ c ∧ c ≤ 57) := by
      rintro ⟨c, hc, h⟩
      exact h (h1 c hc)
    simp only [Host.strs, this, false_and, or_false]
    exact ⟨fun h => ⟨.inl h1, h⟩, fun h => h.2⟩
  · have h1' : ∃ c ∈ n, ¬ (48 ≤ c ∧ c ≤ 57) := by
      by_contra h
      exact h1 fun c hc => by_contra fun h' => h ⟨c, hc, h'⟩
    rw [if_neg h1]
    by_cases h2 : 46 ∈ n
    · rw [if_pos h2]
      simp [Host.strs, h2]
    · rw [if_neg h2]
      by_cases h3 : lower n ∈ H.names
      · simp only [Host.strs, h1', h2, h3, if_true, Bool.false_eq_true, if_false, not_true_eq_false, not_false_eq_true, true_and, false_and,
          false_or, or_false, h1]
      · simp only [Host.strs, h1', h2, h3, Bool.false_eq_true, if_false, not_false_eq_true, true_and, false_and, false_or, or_false, h1]

theorem expanded_iff (H : Host W F N) (d : List UInt8) (sg : List (Str.Piece Name)) :
    Str.Expanded H.strs d sg ↔ Str.Replaced (Refers H.names) .byte d sg := by
  have : Str.Reference H.strs = Refers H.names := by
    funext w o
    exact propext (reference_iff H w o)
  rw [Str.Expanded, this]

/-- **C122** A string is accepted exactly if it can be read: all references are to variables by their names, and unknown names are none.
Left out are the malformed encoded characters of C61. -/
theorem string_accepted_partial (H : Host W F N) {s : List UInt8} (h1 : ¬ Str.Spoiled s) (h2 : ¬ Str.BadUnicode s) :
    Str.tokenize H.strs true s ≠ none ↔ ∃ sg, Read H.names s sg := by
  constructor
  · intro h
    obtain ⟨items, hi⟩ := Option.ne_none_iff_exists'.1 h
    obtain ⟨d, hd, he⟩ := Str.accepted_read_partial H.strs s h1 hi
    exact ⟨_, d, hd, (expanded_iff H _ _).1 he⟩
  · rintro ⟨sg, d, hd, he⟩
    obtain ⟨items, hi, -⟩ := (Str.string_read_partial H.strs s h1 h2 sg).2 ⟨d, hd, (expanded_iff H _ _).2 he⟩
    rw [hi]
    exact Option.some_ne_none _

/-- **C122** The text of a string with variables: its encoded characters replaced, then its references by the texts of the variables. -/
theorem string_says_partial (H : Host W F N) (w : W) (hp : Prints H w) (σ : Store F) {s : List UInt8} (hs : ¬ Str.Spoiled s)
    (ha : Str.tokenize H.strs true s ≠ none) :
    ∃ sg, Read H.names s sg ∧
      Tests.text (H.core.env w).x.flt (value H (σ, w) (.var s)) = H.chars (Str.textOf (heldText H w σ) sg) := by
  obtain ⟨items, hi⟩ := Option.ne_none_iff_exists'.1 ha
  obtain ⟨d, hd, he⟩ := Str.accepted_read_partial H.strs s hs hi
  refine ⟨_, ⟨d, hd, (expanded_iff H _ _).1 he⟩, ?_⟩
  let e : Str.Values Name F Str.Bytes := ⟨fun n => (σ n).map fun r => (H.core.env w).x.utf8 (Tests.text (H.core.env w).x.flt r), id, id, H.showInt, H.showFlt, []⟩
  have h0 := Str.string_value H.strs e ⟨fun _ => rfl, fun _ => rfl, fun _ => rfl, rfl⟩ items
  have h1 := h0.trans (congrArg (fun f => Str.textOf f (Str.pieces H.strs items)) (a₂ := heldText H w σ) (by
    funext n
    simp only [e, heldText]
    cases σ n <;> rfl))
  rw [← h1]
  clear h0 h1
  have hitem : ∀ i, Str.evalItem H.strs (H.values w σ) i = Str.evalItem H.strs e i := by
    intro i
    cases i with
    | var n =>
      simp only [Str.evalItem, e, Host.values]
      cases σ n <;> rfl
    | _ => rfl
  simp only [value, Host.eval, hi]
  clear ha hi he
  unfold Str.evalValue
  split
  · rfl
  · exact (hp.int _).symm
  · exact (hp.flt _).symm
  · rename_i n
    show Tests.text _ ((σ n).getD (.str [])) = H.chars (((σ n).map _).getD [])
    cases σ n with
    | none => exact hp.nil.symm
    | some r => exact (hp.chars _).symm
  · show H.chars _ = H.chars _
    congr 2
    funext i
    exact hitem i

/-- **C122** A string that is just one reference has the value of the variable, a number or a list as well as a text. -/
theorem reference_says (H : Host W F N) (w : W) (σ : Store F) {n : List UInt8} (hn : Str.IsName n) (hd : 46 ∉ n)
    (hl : ∃ c ∈ n, ¬ (48 ≤ c ∧ c ≤ 57)) (hm : lower n ∈ H.names) {r : Expr.Val F} (hr : σ (lower n) = some r) :
    value H (σ, w) (.var ([36, 123] ++ n ++ [125])) = r := by
  have hv : H.strs.resolve n = .var (lower n) := by
    obtain ⟨c, hc, hl⟩ := hl
    unfold Str.Ext.resolve
    rw [if_neg fun h => hl (h c hc), if_neg hd]
    simp [Host.strs, hm]
  obtain ⟨h1, h2⟩ := Str.single_variable H.strs (H.values w σ) hn hv
  simp only [value, Host.eval, h1]
  exact h2 r hr

end Sieve.Vars
