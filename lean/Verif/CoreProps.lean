import Verif.CoreSpec
import Verif.BaseUntouched

/-!
# C121: scripts of the core language, from the text to what the host is told
-/

namespace Sieve.Core

open Sieve.Args Sieve.Fields Sieve.Compile

variable {W V F N S : Type}

/-! ## Arguments -/

theorem isConst_iff (a : Arg F) : isConst a = true ↔ Fixed a := by
  unfold isConst Fixed
  split
  · simp
  · rename_i vs
    rw [List.all_eq_true]
    constructor
    · intro h s hs
      simpa using h _ hs
    · intro h v hv
      cases v with
      | var s => exact absurd hv (h s)
      | _ => rfl
  · rename_i a b
    cases a <;> cases b <;> simp
  · rename_i h1 h2 h3
    cases a with
    | val v =>
      cases v with
      | var s => exact absurd rfl (h1 s)
      | _ => simp
    | vals vs => exact absurd rfl (h2 vs)
    | pair a b => exact absurd rfl (h3 a b)
    | _ => simp

theorem constant_iff (g : Got F) : constant g = true ↔ Constant g := by
  simp [constant, Constant, isConst_iff, Prod.forall]

/-- The arguments of a command or test are those of its syntax. -/
def Read (x : Args.Ext F) : Script.Node F → Prop
  | .cmd w g => ∃ e has ts r, commandEntry w = some e ∧ readEntry x has w e ts = some (g, r)
  | .test w g => ∃ e has ts r, testEntry w = some e ∧ readEntry x has w e ts = some (g, r)
  | _ => True

def TokRead (x : Args.Ext F) : Compile.Tok (Script.Node F) (Script.Node F) (List UInt8) → Prop
  | .act l => ∀ n ∈ l, Read x n
  | .leaf n => Read x n
  | .vac t a => Read x t ∧ Read x a
  | _ => True

theorem script_read (x : Args.Ext F) {pre b ts nodes} (h : Script.IsScript x pre b ts nodes) : ∀ n ∈ nodes, Read x n := by
  induction h with
  | nil _ => simp
  | piece hp _ _ _ ih =>
    intro n hn
    rcases List.mem_append.1 hn with hn | hn
    · cases hp with
      | @cmd w e u r g h1 h2 h3 =>
        rw [List.mem_singleton] at hn
        subst hn
        exact ⟨e, _, u ++ _, _, h1, (arguments_iff x _ (.inl h1) _ _ _).2 ⟨h2, u, rfl, h3⟩⟩
      | _ =>
        simp only [List.mem_cons, List.not_mem_nil, or_false] at hn
        first
          | (subst hn; trivial)
          | (rcases hn with rfl | rfl <;> trivial)
    · exact ih n hn
  | test hp _ ih =>
    intro n hn
    rcases List.mem_append.1 hn with hn | hn
    · cases hp with
      | @test w e u r g h1 h2 h3 =>
        rw [List.mem_singleton] at hn
        subst hn
        exact ⟨e, _, u ++ _, _, h1, (arguments_iff x _ (.inr h1) _ _ _).2 ⟨h2, u, rfl, h3⟩⟩
      | _ =>
        simp only [List.mem_cons, List.not_mem_nil, or_false] at hn
        subst hn
        trivial
    · exact ih n hn

theorem tok_read (x : Args.Ext F) (n : Script.Node F) (h : Read x n) : TokRead x n.tok := by
  unfold Script.Node.tok
  split <;> first
    | trivial
    | (intro m hm; rw [List.mem_singleton] at hm; subst hm; first | exact h | trivial)
    | exact h
    | exact ⟨h, h⟩
    | (split <;> trivial)

theorem structure_read {lx : Lex.Ext Word F} {x : Args.Ext F} {text : List UInt8} {b : Whole.Prog F}
    (h : Whole.Structure lx x text b) : ∀ k ∈ b.toks, TokRead x k := by
  obtain ⟨is, ts, nodes, -, -, -, h1, h2⟩ := h
  intro k hk
  rw [← h2] at hk
  obtain ⟨n, hn, rfl⟩ := List.mem_map.1 hk
  exact tok_read x n (script_read x h1 n hn)

/-! ## Tests -/

/-- The message that the tests see has the parts `t`. -/
structure Sees (H : Host W F N) (w : W) (t : Mime.Tree) : Prop where
  ok : (H.env w).x.Ok
  parts : Mime.Represents (H.env w).parts t
  root : (H.env w).part = t.id
  fuel : t.preorder.length < H.fuel w

theorem test_says [DecidableEq N] {x : Args.Ext F} {H : Host W F N} {w : W} {t : Mime.Tree} (hs : Sees H w t) {c : Word} {g : Got F}
    (hr : Read x (.test c g)) (hc : Test (.test c g)) :
    ∃ b, H.test w (.test c g) = some b ∧ (b = true ↔ IsTrue (H.env w) (H.size w) t c g) := by
  obtain ⟨e, has, ts, r, he, hr⟩ := hr
  obtain ⟨hw, hg⟩ | hw := hc
  · simp only [List.mem_cons, List.not_mem_nil, or_false] at hw
    rcases hw with rfl | rfl | rfl
    · obtain ⟨i, h1, h2, h3, h4, h5⟩ := Written.header_written (N := N) x has he hr
      obtain ⟨b, caps, h6, h7⟩ := h5 (H.env w) t false 0 (H.fuel w) hs.ok hs.parts hs.root hs.fuel hg (fun h => absurd rfl h)
      refine ⟨b, ?_, h7.trans ⟨fun h => ⟨_, _, h4, h⟩, ?_⟩⟩
      · simp [Host.test, h3, h6, boolOf]
      · rintro ⟨hs', ks', h8, h9⟩
        rw [h4] at h8
        simp only [List.cons.injEq, Arg.vals.injEq, and_true] at h8
        obtain ⟨rfl, rfl⟩ := h8
        exact h9
    · obtain ⟨i, h1, h2, h3, h4, h5⟩ := Written.address_written (N := N) x has he hr
      obtain ⟨b, caps, h6, h7⟩ := h5 (H.env w) t false 0 (H.fuel w) hs.ok hs.parts hs.root hs.fuel hg (fun h => absurd rfl h)
      refine ⟨b, ?_, h7.trans ⟨fun h => ⟨_, _, h4, h⟩, ?_⟩⟩
      · simp [Host.test, h3, h6, boolOf]
      · rintro ⟨hs', ks', h8, h9⟩
        rw [h4] at h8
        simp only [List.cons.injEq, Arg.vals.injEq, and_true] at h8
        obtain ⟨rfl, rfl⟩ := h8
        exact h9
    · obtain ⟨i, h1, h2, h3, h4, h5⟩ := Written.envelope_written (N := N) x has he hr
      obtain ⟨b, caps, h6, h7⟩ := h5 (H.env w) false 0 hs.ok hg (fun h => absurd rfl h)
      refine ⟨b, ?_, h7.trans ⟨fun h => ⟨_, _, h4, h⟩, ?_⟩⟩
      · simp [Host.test, h3, h6, boolOf]
      · rintro ⟨hs', ks', h8, h9⟩
        rw [h4] at h8
        simp only [List.cons.injEq, Arg.vals.injEq, Arg.texts.injEq, and_true] at h8
        obtain ⟨rfl, rfl⟩ := h8
        exact h9
  · simp only [List.mem_cons, List.not_mem_nil, or_false] at hw
    rcases hw with rfl | rfl
    · obtain ⟨i, h1, h3, h4, h5⟩ := Written.exists_written (N := N) x has he hr
      obtain ⟨b, h6, h7⟩ := h5 (H.env w) t false (H.fuel w) hs.parts hs.root hs.fuel
      refine ⟨b, ?_, h7.trans ⟨fun h => ⟨_, h4, h⟩, ?_⟩⟩
      · simp [Host.test, h3, h6]
      · rintro ⟨hs', h8, h9⟩
        rw [h4] at h8
        simp only [List.cons.injEq, Arg.vals.injEq, and_true] at h8
        subst h8
        exact h9
    · injection he with he
      subst he
      obtain ⟨-, u, rfl, hu⟩ := (arguments_iff x has (w := .Size) (.inr rfl) _ _ _).1 hr
      cases hu with
      | @over n => exact ⟨decide (n < H.size w), by simp [Host.test, sizeIs, Tests.sizeTest], by simp [IsTrue, Uses]⟩
      | @under n => exact ⟨decide (H.size w < n), by simp [Host.test, sizeIs, Tests.sizeTest], by simp [IsTrue, Uses]⟩

section
variable [DecidableEq N] {x : Args.Ext F} {H : Host W F N} {w : W} {t : Mime.Tree} {cfg : Vm.Cfg W V Place} {notV : V → V}
  {hnot : ∀ v, cfg.toBool (notV v) = !cfg.toBool v}

mutual
theorem truth_says (hs : Sees H w t) : ∀ (e : TestE (Script.Node F) (Script.Node F) (List UInt8)), (∀ k ∈ e.toks, TokRead x k) → CoreTestE e →
    ∀ v : Base.State W V Place, v.view.world = w → ∃ b, Base.truth (H.interp cfg notV hnot) e v = some (b, v) ∧ (b = true ↔ HoldsIn H w t e)
  | .atom a, hr, hc, v, hv => by
    cases a with
    | tru => exact ⟨true, rfl, by simp [HoldsIn, Holds]⟩
    | fls => exact ⟨false, rfl, by simp [HoldsIn, Holds]⟩
    | leaf n =>
      have hc : CoreTest n := hc
      have hr : Read x n := hr (.leaf n) (by simp [TestE.toks, Atom.tok])
      cases n with
      | test c g =>
        obtain ⟨b, h1, h2⟩ := test_says hs hr hc.2
        refine ⟨b, ?_, h2⟩
        have hk : constant g = true := (constant_iff g).2 hc.1
        subst hv
        simp [Base.truth, Base.atomTruth, Host.interp, got, hk, h1]
      | _ => exact hc.2.elim
    | _ => exact hc.elim
  | .not e, hr, hc, v, hv => by
    obtain ⟨b, h1, h2⟩ := truth_says hs e (fun k hk => hr k (by simp [TestE.toks, hk])) hc v hv
    refine ⟨!b, by simp [Base.truth, h1], ?_⟩
    show _ ↔ ¬ HoldsIn H w t e
    rw [← h2]
    simp
  | .any l, hr, hc, v, hv => by
    obtain ⟨b, h1, h2⟩ := (truths_says hs l (fun k hk => hr k (by simp [TestE.toks, hk])) hc v hv).1
    exact ⟨b, h1, h2⟩
  | .all l, hr, hc, v, hv => by
    obtain ⟨b, h1, h2⟩ := (truths_says hs l (fun k hk => hr k (by simp [TestE.toks, hk])) hc v hv).2
    exact ⟨b, h1, h2⟩
theorem truths_says (hs : Sees H w t) : ∀ (l : Tests (Script.Node F) (Script.Node F) (List UInt8)), (∀ k ∈ l.toks, TokRead x k) → CoreTests l →
    ∀ v : Base.State W V Place, v.view.world = w →
      (∃ b, Base.truths (H.interp cfg notV hnot) false l v = some (b, v) ∧ (b = true ↔ Some (IsTrue (H.env w) (H.size w) t) l)) ∧
      (∃ b, Base.truths (H.interp cfg notV hnot) true l v = some (b, v) ∧ (b = true ↔ All (IsTrue (H.env w) (H.size w) t) l))
  | .one e, hr, hc, v, hv => by
    obtain ⟨b, h1, h2⟩ := truth_says hs e (fun k hk => hr k (by simp [Tests.toks, hk])) hc v hv
    exact ⟨⟨b, h1, h2⟩, ⟨b, h1, h2⟩⟩
  | .cons e l, hr, hc, v, hv => by
    obtain ⟨b, h1, h2⟩ := truth_says hs e (fun k hk => hr k (by simp [Tests.toks, hk])) hc.1 v hv
    obtain ⟨⟨b1, h3, h4⟩, ⟨b2, h5, h6⟩⟩ := truths_says hs l (fun k hk => hr k (by simp [Tests.toks, hk])) hc.2 v hv
    simp only [Base.truths, h1, Some, All]
    unfold HoldsIn at h2
    cases b
    · have : ¬ Holds (IsTrue (H.env w) (H.size w) t) e := fun h => by cases h2.2 h
      exact ⟨⟨b1, by simp [h3], by simp [h4, this]⟩, ⟨false, by simp, by simp [this]⟩⟩
    · have := h2.1 rfl
      exact ⟨⟨true, by simp, by simp [this]⟩, ⟨b2, by simp [h5], by simp [h6, this]⟩⟩
end

end

/-! ## Commands -/

/-- The configuration of the interpreter is that of the host. -/
structure Fits (H : Host S F N) (cfg : Vm.Cfg W V Place) (w : W) (q : S) : Prop where
  own : ∀ a d r t, cfg.own w (.address (.address a) d r t) = true ↔ a.map Char.toLower = (H.user q).map Char.toLower
  flags : cfg.globalFlags w = (Flags.flagsOf (H.flagText q)).map String.ofList
  received : cfg.received w = H.received q

/-- A state of the interpreter and one of the script. -/
structure Rep (see : Vm.View W V → S) (w : W) (q : S) (s : St) (st : Base.State W V Place) : Prop where
  world : st.view.world = w
  seen : see st.view = q
  out : st.view.numOut = outgoing s.acts
  redirects : st.redirects = s.sent
  acts : st.acts = s.acts
  edited : st.edited = false

theorem action_edit (H : Host S F N) (see : Vm.View W V → S) (n : Script.Node F) (f) : H.action see n ≠ .edit f := by
  unfold Host.action
  split <;> first | (simp; done) | (split <;> simp; done) | (unfold rejection; split <;> simp)

theorem act_edit (H : Host W F N) (n : Script.Node F) (f) : (H.act n : Vm.Instr W V Place) ≠ .edit f := by
  unfold Host.act
  split
  · exact action_edit H _ n f
  · simp

theorem outgoing_append (l k : List (Base.Action Place)) : outgoing (l ++ k) = outgoing l + outgoing k := by
  induction l with
  | nil => simp [outgoing]
  | cons a l ih =>
    rw [List.cons_append]
    cases a with
    | mail kind _ _ _ _ => cases kind <;> simp only [outgoing, ih] <;> omega
    | _ => simp only [outgoing, ih] <;> omega

theorem flags_are (H : Host S F N) (w : S) {g : Got F} {vs : List (Val F)} (h : Stores g [.Flags] Many [] vs) :
    FlagsAre H w g (H.flags w vs) := by
  refine ⟨_, (Written.lists_iff h (H.env w) _).2 rfl, ?_, ?_⟩
  · intro hne
    refine ⟨_, (Written.flagsIn_iff _ _ _).2 rfl, ?_⟩
    have : vs.map (H.events w).eval ≠ [] := by simpa using hne
    simp only [Host.flags, Event.flags, Flags.localOrGlobal, if_neg this]
    rfl
  · intro he
    have : vs = [] := by simpa using he
    simp [Host.flags, Event.flags, Flags.localOrGlobal, this, Host.events]

theorem keep_stores {x : Args.Ext F} {has : Cap → Bool} {e : Entry} (he : commandEntry .Keep = some e) {ts : List (Tok F)} {g : Got F}
    {r : List (Tok F)} (h : readEntry x has .Keep e ts = some (g, r)) : Stores g [.Flags] Many [] (keepFlags g) := by
  injection he with he
  subst he
  rcases Event.keep_read h with hg | ⟨vs, hg⟩
  · exact ⟨fun w a ha => by simp [hg] at ha, fun _ => by simp [keepFlags, hg]⟩
  · refine ⟨fun w a ha hw => ?_, fun hn => ?_⟩
    · simp only [hg, List.mem_singleton, Prod.mk.injEq] at ha
      simp [keepFlags, hg, Many, ha.2]
    · exact absurd ⟨_, by rw [hg]; exact List.mem_singleton_self _⟩ (hn .Flags (by simp))

theorem action_does {cfg : Vm.Cfg W V Place} {x : Args.Ext F} {H : Host S F N} {see : Vm.View W V → S} {w : W} {q : S}
    (hv : ∀ v k, see { v with numOut := k } = see v) (hf : Fits H cfg w q) {n : Script.Node F} (hr : Read x n)
    (hc : Command H cfg n) {s : St} {st : Base.State W V Place} (h : Rep see w q s st) :
    ∃ s' b st', Base.command cfg st (H.action see n) = some (st', b) ∧ Does H cfg q n s s' b ∧ Rep see w q s' st' ∧
      st'.view.locals = st.view.locals := by
  cases n with
  | require ns =>
    refine ⟨s, false, st, ?_, .require, h, rfl⟩
    have hall : (H.caps ns).all cfg.allowed = true := List.all_eq_true.2 hc
    simp [Host.action, Base.command, hall]
  | cmd c g =>
    obtain ⟨e, has, ts, r, he, hr⟩ := hr
    simp only [Command, List.mem_cons, List.not_mem_nil, or_false] at hc
    rcases hc with rfl | rfl | rfl | rfl | rfl | rfl | rfl
    · refine ⟨_, false, Base.andDoes st (.keep (H.flags (see st.view) (keepFlags g))),
        by simp only [Host.action, Base.command, Base.writeDown_same h.edited], .keep (flags_are H q (keep_stores he hr)),
        ⟨h.world, h.seen, h.out.trans (by simp [outgoing_append, outgoing]), h.redirects, ?_, h.edited⟩, rfl⟩
      simp [Base.andDoes, h.acts, h.seen]
    · exact ⟨_, false, _, rfl, .discard, ⟨h.world, h.seen, h.out.trans (by simp [outgoing_append, outgoing]), h.redirects, by simp [h.acts], h.edited⟩, rfl⟩
    · exact ⟨_, true, _, rfl, .stop, h, rfl⟩
    · obtain ⟨i, h1, h2, h3, h4, h5, h6, h7⟩ := fileinto_fields x has he hr
      simp only [Host.action, h1]
      simp only [Base.command, Base.writeDown_same h.edited]
      refine ⟨_, false, _, rfl, .fileinto ⟨_, _, _, _, _, h2, rfl, rfl,
        (Written.says_iff h6 (H.env q) _).2 rfl, (Written.says_iff h7 (H.env q) _).2 rfl, Written.flag_iff h4⟩ (flags_are H q h5)
        (Written.flag_iff h3), ⟨h.world, h.seen, h.out.trans (by simp [outgoing_append, outgoing]), h.redirects, ?_, h.edited⟩, rfl⟩
      simp only [Base.andDoes, h.acts, h.seen]
      rfl
    · obtain ⟨i, h1, h2, h3, h4, h5, h6, h7⟩ := redirect_fields_partial x has he hr
      simp only [Host.action, h1, Base.command, h.seen, Base.writeDown_same h.edited]
      have hl := Written.flag_iff h4
      have goes : ∀ a, Goes H cfg q g s a ↔ Address.sanitizeAddress ((H.events q).eval i.address) = some a ∧
          Base.MayRedirect cfg st i.list (.address (if !i.list then .address a else .list a) i.dsn i.ret
            (Event.sentTime (H.events q) i.byTime)) = true := by
        intro a
        have hown : (i.list || !cfg.own w (.address (if !i.list then .address a else .list a) i.dsn i.ret
            (Event.sentTime (H.events q) i.byTime))) = true ↔ Uses g .List ∨ a.map Char.toLower ≠ (H.user q).map Char.toLower := by
          rw [← hl]
          cases i.list
          · simp [← hf.own a i.dsn i.ret (Event.sentTime (H.events q) i.byTime)]
          · simp
        simp only [Base.MayRedirect, Bool.and_eq_true, decide_eq_true_eq, h.out, h.redirects, h.world, hf.received, hown]
        constructor
        · rintro ⟨⟨v, tx, h8, h9, h10⟩, h11, h12, h13, h14⟩
          rw [h2] at h8
          simp only [List.cons.injEq, Arg.val.injEq, and_true] at h8
          subst h8
          rw [h9] at h10
          exact ⟨h10, ⟨⟨h11, h12⟩, h13⟩, h14⟩
        · rintro ⟨h10, ⟨⟨h11, h12⟩, h13⟩, h14⟩
          exact ⟨⟨_, _, h2, rfl, h10⟩, h11, h12, h13, h14⟩
      cases ha : Address.sanitizeAddress ((H.events q).eval i.address) with
      | none =>
        refine ⟨s, false, st, rfl, .stays ?_, h, rfl⟩
        rintro ⟨a, h8⟩
        rw [goes, ha] at h8
        cases h8.1
      | some a =>
        simp only [Option.map_some]
        by_cases hm : Base.MayRedirect cfg st i.list (.address (if !i.list then .address a else .list a) i.dsn i.ret
            (Event.sentTime (H.events q) i.byTime)) = true
        · rw [if_pos hm]
          refine ⟨_, false, _, rfl, .redirect ((goes a).2 ⟨ha, hm⟩) ⟨_, _, _, rfl, h5, h6, Event.time_sent _ h7⟩ (Written.flag_iff h3),
            ⟨h.world, (hv _ _).trans h.seen, (congrArg (· + 1) h.out).trans (by simp [outgoing_append, outgoing]), congrArg (· + 1) h.redirects, ?_, h.edited⟩, rfl⟩
          have hrec : (if (!i.list) = true then Event.Recipient.address a else .list a) = Event.recipient g a := by
            unfold Event.recipient
            cases hb : i.list
            · rw [if_neg (c := Uses g .List) (fun hu => by rw [hl.2 hu] at hb; cases hb)]
              rfl
            · rw [if_pos (c := Uses g .List) (hl.1 hb)]
              rfl
          simp only [Base.andDoes, h.acts, hrec]
        · rw [if_neg hm]
          refine ⟨s, false, st, rfl, .stays ?_, h, rfl⟩
          rintro ⟨a', h8⟩
          rw [goes, ha] at h8
          obtain ⟨h9, h10⟩ := h8
          injection h9 with h9
          subst h9
          exact hm h10
    · obtain ⟨v, hp, -⟩ := Event.reject_events (S := Unit) x has (.inl rfl) he hr
      simp only [Host.action, rejection, hp]
      refine ⟨_, false, _, rfl, .reject hp rfl, ⟨h.world, h.seen, h.out.trans (by simp [outgoing_append, outgoing]), h.redirects, ?_, h.edited⟩, rfl⟩
      simp only [h.acts, h.seen]
      rfl
    · obtain ⟨v, hp, -⟩ := Event.reject_events (S := Unit) x has (.inr rfl) he hr
      simp only [Host.action, rejection, hp]
      refine ⟨_, false, _, rfl, .ereject hp rfl, ⟨h.world, h.seen, h.out.trans (by simp [outgoing_append, outgoing]), h.redirects, ?_, h.edited⟩, rfl⟩
      simp only [h.acts, h.seen]
      rfl
  | _ => exact hc.elim

/-- As the host of C121 sees a state of the interpreter. -/
abbrev Rep' (w : W) (s : St) (st : Base.State W V Place) : Prop := Rep Vm.View.world w w s st

section
variable [DecidableEq N] {x : Args.Ext F} {H : Host W F N} {w : W} {t : Mime.Tree} {cfg : Vm.Cfg W V Place} {notV : V → V}
  {hnot : ∀ v, cfg.toBool (notV v) = !cfg.toBool v}

theorem command_does (hf : Fits H cfg w w) {n : Script.Node F} (hr : Read x n) (hc : CoreCmd H cfg n) {s : St}
    {st : Base.State W V Place} (h : Rep' w s st) :
    ∃ s' b st', Base.command cfg st (H.act n) = some (st', b) ∧ Does H cfg w n s s' b ∧ Rep' w s' st' := by
  have hact : (H.act n : Vm.Instr W V Place) = H.action Vm.View.world n := if_pos ((constant_iff _).2 hc.1)
  rw [hact]
  obtain ⟨s', b, st', h1, h2, h3, -⟩ := action_does (fun _ _ => rfl) hf hr hc.2 h
  exact ⟨s', b, st', h1, h2, h3⟩

theorem commands_do (hf : Fits H cfg w w) : ∀ (l : List (Script.Node F)), (∀ n ∈ l, Read x n) → (∀ n ∈ l, CoreCmd H cfg n) →
    ∀ {s : St} {st : Base.State W V Place}, Rep' w s st →
      ∃ s' b st', Base.commands (H.interp cfg notV hnot) l st = some (st', b) ∧ DoesAll H cfg w l s s' b ∧ Rep' w s' st'
  | [], _, _, s, st, h => ⟨s, false, st, rfl, .nil, h⟩
  | n :: l, hr, hc, s, st, h => by
    obtain ⟨m, b, st1, h1, h2, h3⟩ := command_does hf (hr n List.mem_cons_self) (hc n List.mem_cons_self) h
    have h1' : Base.command cfg st ((H.interp cfg notV hnot).act n) = some (st1, b) := h1
    simp only [Base.commands, h1']
    cases b
    · obtain ⟨s', b, st', h4, h5, h6⟩ := commands_do hf l (fun n hn => hr n (List.mem_cons_of_mem _ hn))
        (fun n hn => hc n (List.mem_cons_of_mem _ hn)) h3
      exact ⟨s', b, st', h4, .cons h2 h5, h6⟩
    · exact ⟨m, true, st1, rfl, .ends h2, h3⟩

/-! ## Scripts -/

mutual
theorem stmt_runs (hs : Sees H w t) (hf : Fits H cfg w w) : ∀ (c : Stmt (Script.Node F) (Script.Node F) (List UInt8)),
    (∀ k ∈ c.toks, TokRead x k) → CoreStmt H cfg c → ∀ {s : St} {st : Base.State W V Place}, Rep' w s st →
      ∃ s' b st', Base.stmt (H.interp cfg notV hnot) c st = some (st', b) ∧ RunStmt H cfg w t c s s' b ∧ Rep' w s' st'
  | .act l, hr, hc, s, st, h => by
    obtain ⟨s', b, st', h1, h2, h3⟩ := commands_do (notV := notV) (hnot := hnot) hf l (hr (.act l) (by simp [Stmt.toks])) hc h
    exact ⟨s', b, st', h1, .act h2, h3⟩
  | .cond c, hr, hc, s, st, h => by
    obtain ⟨s', b, st', h1, h2, h3⟩ := chain_runs hs hf true c hr hc h
    exact ⟨s', b, st', h1, .cond h2, h3⟩
  | .eval _, _, hc, _, _, _ => hc.elim
  | .vac _ _, _, hc, _, _, _ => hc.elim
  | .loop _ _ _, _, hc, _, _, _ => hc.elim
  | .parts _ _ _, _, hc, _, _, _ => hc.elim
  | .brk _, _, hc, _, _, _ => hc.elim
  | .cont, _, hc, _, _, _ => hc.elim
  | .ret, _, hc, _, _, _ => hc.elim
theorem block_runs (hs : Sees H w t) (hf : Fits H cfg w w) : ∀ (l : Blk (Script.Node F) (Script.Node F) (List UInt8)),
    (∀ k ∈ l.toks, TokRead x k) → CoreBlk H cfg l → ∀ {s : St} {st : Base.State W V Place}, Rep' w s st →
      ∃ s' b st', Base.block (H.interp cfg notV hnot) l st = some (st', b) ∧ RunBlk H cfg w t l s s' b ∧ Rep' w s' st'
  | .nil, _, _, s, st, h => ⟨s, false, st, rfl, .nil, h⟩
  | .cons c l, hr, hc, s, st, h => by
    obtain ⟨m, b, st1, h1, h2, h3⟩ := stmt_runs hs hf c (fun k hk => hr k (by simp [Blk.toks, hk])) hc.1 h
    simp only [Base.block, h1]
    cases b
    · obtain ⟨s', b, st', h4, h5, h6⟩ := block_runs hs hf l (fun k hk => hr k (by simp [Blk.toks, hk])) hc.2 h3
      exact ⟨s', b, st', h4, .cons h2 h5, h6⟩
    · exact ⟨m, true, st1, rfl, .ends h2, h3⟩
theorem chain_runs (hs : Sees H w t) (hf : Fits H cfg w w) (first : Bool) : ∀ (c : Chain (Script.Node F) (Script.Node F) (List UInt8)),
    (∀ k ∈ c.toks first, TokRead x k) → CoreChain H cfg c → ∀ {s : St} {st : Base.State W V Place}, Rep' w s st →
      ∃ s' b st', Base.chain (H.interp cfg notV hnot) c st = some (st', b) ∧ RunChain H cfg w t c s s' b ∧ Rep' w s' st'
  | .one e b cl, hr, hc, s, st, h => by
    obtain ⟨hc1, hc2, rfl⟩ := hc
    obtain ⟨v, h1, h2⟩ := truth_says (cfg := cfg) (notV := notV) (hnot := hnot) hs e
      (fun k hk => hr k (by simp [Chain.toks, hk])) hc1 st h.world
    simp only [Base.chain, h1]
    cases v
    · exact ⟨s, false, st, rfl, .oneNot (fun h => by cases h2.2 h), h⟩
    · obtain ⟨s', f, st', h3, h4, h5⟩ := block_runs hs hf b (fun k hk => hr k (by simp [Chain.toks, hk])) hc2 h
      refine ⟨s', f, st', ?_, .one (h2.1 rfl) h4, h5⟩
      simp only [h3]
      cases f <;> rfl
  | .els e b cl c cl', hr, hc, s, st, h => by
    obtain ⟨hc1, hc2, hc3, rfl, rfl⟩ := hc
    obtain ⟨v, h1, h2⟩ := truth_says (cfg := cfg) (notV := notV) (hnot := hnot) hs e
      (fun k hk => hr k (by simp [Chain.toks, hk])) hc1 st h.world
    simp only [Base.chain, h1]
    cases v
    · obtain ⟨s', f, st', h3, h4, h5⟩ := block_runs hs hf c (fun k hk => hr k (by simp [Chain.toks, hk])) hc3 h
      refine ⟨s', f, st', ?_, .elsNot (fun h => by cases h2.2 h) h4, h5⟩
      simp only [h3]
      cases f <;> rfl
    · obtain ⟨s', f, st', h3, h4, h5⟩ := block_runs hs hf b (fun k hk => hr k (by simp [Chain.toks, hk])) hc2 h
      refine ⟨s', f, st', ?_, .els (h2.1 rfl) h4, h5⟩
      simp only [h3]
      cases f <;> rfl
  | .elif e b cl c, hr, hc, s, st, h => by
    obtain ⟨hc1, hc2, hc3, rfl⟩ := hc
    obtain ⟨v, h1, h2⟩ := truth_says (cfg := cfg) (notV := notV) (hnot := hnot) hs e
      (fun k hk => hr k (by simp [Chain.toks, hk])) hc1 st h.world
    simp only [Base.chain, h1]
    cases v
    · obtain ⟨s', f, st', h3, h4, h5⟩ := chain_runs hs hf false c (fun k hk => hr k (by simp [Chain.toks, hk])) hc3 h
      exact ⟨s', f, st', h3, .elifNot (fun h => by cases h2.2 h) h4, h5⟩
    · obtain ⟨s', f, st', h3, h4, h5⟩ := block_runs hs hf b (fun k hk => hr k (by simp [Chain.toks, hk])) hc2 h
      refine ⟨s', f, st', ?_, .elif (h2.1 rfl) h4, h5⟩
      simp only [h3]
      cases f <;> rfl
end

end

/-! ## C121 -/

open Vm in
/-- **C121** A text in the core language does what it says.  The host hands over the script that the compiler has made of a text, and
answers all events by `true` or `false`.  Then the script runs to actions as `RunBlk` says, with tests that are true as RFC 5228 says, and,
if no action after a `keep` cancels the implicit keep and the limit of instructions is not exceeded, the host is told the deliveries in
their order, then what becomes of the message, and nothing else.

The full claim would have no condition `KeepsLast` (`Base.kept_message_lost`). -/
theorem core_text_partial [DecidableEq F] [DecidableEq N] {lx : Lex.Ext Word F} {x : Args.Ext F} {lim : Limits} {maxSize : Nat}
    {H : Host W F N} {cfg : Cfg W V Place} {notV : V → V} {hnot : ∀ v, cfg.toBool (notV v) = !cfg.toBool v} {w : W} {t : Mime.Tree}
    {src : Vm.Script W V Place → Whole.Prog F} {n : Name} {s : Vm.Script W V Place} {r m}
    (hS : Sees H w t) (hF : Fits H cfg w w) (hE : ∀ v, cfg.isEmpty v = true → v = cfg.empty)
    (hh : Hist cfg (Ctx.new w) (.input (.script n s) :: r) m) (ha : Accepted s) (hA : Base.Answers (Source.io r))
    (hC : .output (.error .cpuLimit) ∉ Source.io r) (hs : Whole.FromText lx x lim maxSize (H.interp cfg notV hnot) src s)
    (hreg : ∀ n s, cfg.registered n = some s → Whole.FromText lx x lim maxSize (H.interp cfg notV hnot) src s)
    (hcore : CoreBlk H cfg (src s)) :
    ∃ st stopped, RunBlk H cfg w t (src s) ⟨0, []⟩ st stopped ∧ (Base.KeepsLast st.acts →
      (∀ o, .output o ∈ Source.io r → o = .none ∨ ∃ e, o = .event e) ∧
      ∃ l, Finally H w st.acts l ∧ Base.told (Source.io r) <+: Base.sent st.acts ++ l ∧
        (.output .none ∈ Source.io r → Base.told (Source.io r) = Base.sent st.acts ++ l)) := by
  obtain ⟨text, ops, h1, -, -⟩ := hs.compiled
  obtain ⟨ans, hQ⟩ := Base.answered_exists hA
  obtain ⟨st, b, bst, h2, h3, h4⟩ := block_runs (notV := notV) (hnot := hnot) hS hF (src s) (structure_read h1) hcore
    (s := ⟨0, []⟩) (st := Base.initial cfg w s.numVars s.numMatchVars ans) ⟨rfl, rfl, rfl, rfl, rfl, rfl⟩
  refine ⟨st, b, h3, fun hk => ?_⟩
  have ho : Base.outcome (H.interp cfg notV hnot) (src s) w s.numVars s.numMatchVars ans = some bst := by
    unfold Base.outcome
    rw [h2]
    rfl
  have hu := Base.outcome_untouched (fun a f => act_edit H a f) ho
  rw [← h4.acts] at hk ⊢
  obtain ⟨h5, l, h6, h7⟩ := Base.base_text_partial hE hh ha hA hQ hC hs hreg ho hk hu.upToDate
  refine ⟨h5, l, ⟨fun fl hfl => ?_, h6.discard, h6.other⟩, h7⟩
  rw [hu.last h6 hfl, h4.world, hF.flags]

end Sieve.Core
