import Verif.MailLangSpec
import Verif.AskLangProps

/-!
# C125: scripts with notifications and vacation replies, from the text to what the host is told
-/

namespace Sieve.MailLang

open Sieve.Args Sieve.Fields Sieve.Vars
open Sieve.FlagLang (Text)

variable {W V F N : Type} [DecidableEq F]

theorem made_append (l k : List (Base.Action Core.Place)) : Base.made (l ++ k) = Base.made l + Base.made k := Base.made_append l k

/-- The message that the tests see has the parts `t`. -/
structure Sees (H : Host W F N) (w : W) (t : Mime.Tree) : Prop where
  asks : AskLang.Sees H.asks w t
  letters : Vacation.Letters (H.asks.flags.vars.core.env w).x

section
variable [DecidableEq N] {x : Args.Ext F} {H : Host W F N} {w : W} {t : Mime.Tree}
  {cfg : Vm.Cfg (Text × W) (Expr.Val F) Core.Place} {notV : Expr.Val F → Expr.Val F} {hnot : ∀ v, cfg.toBool (notV v) = !cfg.toBool v}

/-- A state of the interpreter and one of the script. -/
abbrev Rep (H : Host W F N) (ans : Nat → Bool) (w : W) (s : FlagLang.St F) (st : Base.State (Text × W) (Expr.Val F) Core.Place) : Prop :=
  AskLang.Rep H.asks ans w s st

/-- Actions that are taken. -/
theorem rep_does {ans : Nat → Bool} {s : FlagLang.St F} {st : Base.State (Text × W) (Expr.Val F) Core.Place} (h : Rep H ans w s st)
    (l : List (Base.Action Core.Place)) (k : Nat) (hk : k = Core.outgoing l) :
    Rep H ans w (andDoes s l) { st with view := { st.view with numOut := st.view.numOut + k }, acts := st.acts ++ l } := by
  subst hk
  refine ⟨⟨⟨h.1.core.world, h.1.core.seen, ?_, h.1.core.redirects, ?_, h.1.core.edited⟩, h.1.slots⟩, h.2⟩
  · show st.view.numOut + _ = Core.outgoing (s.core.acts ++ l)
    rw [Core.outgoing_append, show st.view.numOut = Core.outgoing s.core.acts from h.1.core.out]
  · show st.acts ++ l = s.core.acts ++ l
    rw [show st.acts = s.core.acts from h.1.core.acts]

/-! ## Notifications -/

/-- What the interpreter does with the request of a notification is what `Notify::exec` does. -/
theorem request_does (x : Notify.Ext) (c : Notify.Ctx) (a : Notify.Args) (date id : Text) (st : Base.State (Text × W) (Expr.Val F) Core.Place)
    (f : Vm.View (Text × W) (Expr.Val F) → Option (Vm.NotifyReq Core.Place)) (fcc : Option (Vm.View (Text × W) (Expr.Val F) → Core.Place × List String))
    (hf : f st.view = request x c a date id) (hc : a.fcc.map filed = fcc.map fun g => g st.view) (h1 : c.numOut = st.view.numOut)
    (h2 : c.maxOut = cfg.maxOut) (h3 : c.lastId = Base.made st.acts) :
    ∃ l, Takes (Notify.exec x c a date id).events l ∧
      Base.command cfg st (.notify f fcc) = some ({ st with view := { st.view with numOut := st.view.numOut + Core.outgoing l }, acts := st.acts ++ l }, false) ∧
      (Notify.exec x c a date id).lastId = Base.made (st.acts ++ l) ∧ (Notify.exec x c a date id).numOut = st.view.numOut + Core.outgoing l := by
  have nothing : f st.view = none → (Notify.exec x c a date id) = ⟨[], c.lastId, c.numOut⟩ → ∃ l, Takes (Notify.exec x c a date id).events l ∧
      Base.command cfg st (.notify f fcc) = some ({ st with view := { st.view with numOut := st.view.numOut + Core.outgoing l }, acts := st.acts ++ l }, false) ∧
      (Notify.exec x c a date id).lastId = Base.made (st.acts ++ l) ∧ (Notify.exec x c a date id).numOut = st.view.numOut + Core.outgoing l := by
    intro h4 h5
    rw [h5]
    exact ⟨[], .nothing, by simp [Base.command, h4, Core.outgoing], by simp [h3], by simp [h1, Core.outgoing]⟩
  have host : ∀ r, f st.view = some r → r.plain = .message (Notify.render c a Notify.noMail date id) →
      r.event = .notice a.method a.from (Notify.importance a) a.options (Notify.text c a) →
      ∃ l, Takes (if a.fcc.isSome then (⟨.created (c.lastId + 1) (Notify.render c a Notify.noMail date id) ::
            .notify a.method a.from (Notify.importance a) a.options (Notify.text c a) :: Notify.fileCopy a (c.lastId + 1), c.lastId + 1, c.numOut + 1⟩ : Notify.Result)
          else ⟨[.notify a.method a.from (Notify.importance a) a.options (Notify.text c a)], c.lastId, c.numOut + 1⟩).events l ∧
        some (Base.notice st r.event r.plain fcc, false) = some ({ st with view := { st.view with numOut := st.view.numOut + Core.outgoing l }, acts := st.acts ++ l }, false) ∧
        (if a.fcc.isSome then (⟨.created (c.lastId + 1) (Notify.render c a Notify.noMail date id) ::
            .notify a.method a.from (Notify.importance a) a.options (Notify.text c a) :: Notify.fileCopy a (c.lastId + 1), c.lastId + 1, c.numOut + 1⟩ : Notify.Result)
          else ⟨[.notify a.method a.from (Notify.importance a) a.options (Notify.text c a)], c.lastId, c.numOut + 1⟩).lastId = Base.made (st.acts ++ l) ∧
        (if a.fcc.isSome then (⟨.created (c.lastId + 1) (Notify.render c a Notify.noMail date id) ::
            .notify a.method a.from (Notify.importance a) a.options (Notify.text c a) :: Notify.fileCopy a (c.lastId + 1), c.lastId + 1, c.numOut + 1⟩ : Notify.Result)
          else ⟨[.notify a.method a.from (Notify.importance a) a.options (Notify.text c a)], c.lastId, c.numOut + 1⟩).numOut =
            st.view.numOut + Core.outgoing l := by
    intro r h4 h5 h6
    cases hfcc : fcc with
    | none =>
      rw [hfcc, Option.map_none, Option.map_eq_none_iff] at hc
      simp only [hc, Option.isSome_none, Bool.false_eq_true, if_false, h5, h6]
      exact ⟨_, .host, rfl, by simp [made_append, Base.made, h3], by simp [h1, Core.outgoing]⟩
    | some g =>
      rw [hfcc] at hc
      cases ha : a.fcc with
      | none => rw [ha] at hc; cases hc
      | some k =>
        rw [ha, Option.map_some, Option.map_some, Option.some.injEq] at hc
        simp only [Option.isSome_some, if_true, h5, h6, Notify.fileCopy, ha]
        refine ⟨_, .hostCopy, ?_, by simp [made_append, Base.made, h3], by simp [h1, Core.outgoing]⟩
        simp only [Base.notice, Option.map_some, h3, hc, Core.outgoing]
  unfold request at hf
  unfold Notify.exec
  by_cases h4 : c.headers.any Notify.automatic = true
  · rw [if_pos h4] at hf
    have := nothing hf (by unfold Notify.exec; rw [if_pos h4])
    unfold Notify.exec at this
    exact this
  · rw [if_neg h4] at hf
    rw [if_neg h4]
    cases hu : Notify.parseUri a.method with
    | none =>
      rw [hu] at hf
      have := nothing hf (by unfold Notify.exec; rw [if_neg h4, hu])
      unfold Notify.exec at this
      rw [if_neg h4, hu] at this
      exact this
    | some p =>
      obtain ⟨scheme, rest⟩ := p
      rw [hu] at hf
      simp only at hf ⊢
      by_cases h5 : Vacation.same scheme "mailto".toList = true
      · rw [if_pos h5] at hf
        simp only [h5, Bool.true_and]
        by_cases h6 : c.numOut < c.maxOut
        · have h6' : st.view.numOut < cfg.maxOut := by omega
          simp only [decide_eq_true h6, if_true]
          cases hm : Notify.mailOf x rest with
          | none =>
            rw [hm] at hf
            exact ⟨[], .nothing, by simp [Base.command, hf, Core.outgoing, h6'], by simp [h3], by simp [h1, Core.outgoing]⟩
          | some m =>
            rw [hm] at hf
            cases hfcc : fcc with
            | none =>
              rw [hfcc, Option.map_none, Option.map_eq_none_iff] at hc
              simp only [Notify.fileCopy, hc]
              refine ⟨_, .mail, ?_, by simp [made_append, Base.made, h3], by simp [h1, Core.outgoing]⟩
              simp [Base.command, hf, h6', Base.mail, Core.outgoing, h3]
            | some g =>
              rw [hfcc] at hc
              cases ha : a.fcc with
              | none => rw [ha] at hc; cases hc
              | some k =>
                rw [ha, Option.map_some, Option.map_some, Option.some.injEq] at hc
                simp only [Notify.fileCopy, ha]
                refine ⟨_, .mailCopy, ?_, by simp [made_append, Base.made, h3], by simp [h1, Core.outgoing]⟩
                simp [Base.command, hf, h6', Base.mail, Core.outgoing, h3, hc]
        · have h6' : ¬ st.view.numOut < cfg.maxOut := by omega
          simp only [decide_eq_false h6, Bool.false_eq_true, if_false]
          have := host _ hf rfl rfl
          simpa only [Base.command, hf, h6', if_false] using this
      · have h5 : Vacation.same scheme "mailto".toList = false := by simpa using h5
        rw [h5] at hf
        simp only [h5, Bool.false_and, Bool.false_eq_true, if_false] at hf ⊢
        have := host _ hf rfl rfl
        simpa only [Base.command, hf] using this

/-! ## The language -/

/-- Which commands the other languages have. -/
theorem flag_act {n : Script.Node F} (hc : FlagLang.FlagCmd H.asks.flags cfg n) (maxOut maxReceived : Nat) :
    H.act maxOut maxReceived n = H.asks.flags.act n := by
  unfold Host.act
  split
  · exfalso
    rcases hc with ⟨-, c, g, h1, h2, -⟩ | ⟨-, h⟩
    · injection h1 with h1
      subst h1
      simp at h2
    · simp [Core.Command] at h
  · exfalso
    rcases hc with ⟨-, c, g, h1, h2, -⟩ | ⟨-, h⟩
    · injection h1 with h1
      subst h1
      simp at h2
    · simp [Core.Command] at h
  · rfl

/-- A copy that the interpreter files. -/
theorem copy_map {s : FlagLang.St F} {st : Base.State (Text × W) (Expr.Val F) Core.Place}
    (hsee : H.asks.flags.up.see st.view = (s.vars, (s.flags, w)))
    (c : Option (Fields.Fcc F)) : ((H.copy c).map fun g => g st.view) = (c.map (Written.copyOf (look H w s))).map filed := by
  cases c with
  | none => rfl
  | some c =>
    simp only [Host.copy, Option.map_some, hsee]
    rfl

/-- `notify`. -/
theorem notify_does {ans : Nat → Bool} {g : Got F} (hr : Core.Read x (.cmd .Notify g)) {s : FlagLang.St F}
    {st : Base.State (Text × W) (Expr.Val F) Core.Place} (h : Rep H ans w s st) :
    ∃ s' st', Base.command cfg st (H.notify cfg.maxOut g) = some (st', false) ∧ Does H cfg w (.cmd .Notify g) s s' false ∧ Rep H ans w s' st' := by
  obtain ⟨e, has, ts, r, he, hr⟩ := hr
  obtain ⟨i, v, h1, h2, h3⟩ := Written.notify_written (N := N) x has he hr
  obtain ⟨a, h4, h5⟩ := h3 (look H w s)
  have hsee : H.asks.flags.up.see st.view = (s.vars, (s.flags, w)) := h.1.core.seen
  have hout : st.view.numOut = Core.outgoing s.core.acts := h.1.core.out
  have hacts : st.acts = s.core.acts := h.1.core.acts
  obtain ⟨l, h6, h7, -, -⟩ := request_does (cfg := cfg) H.letters (notifies H cfg.maxOut w s) (H.notifyArgs (s.vars, (s.flags, w)) i) (H.date w) (H.id w) st
    (fun v => request H.letters (H.notifyCtx cfg.maxOut (H.asks.flags.up.see v).2.2 v.numOut 0) (H.notifyArgs (H.asks.flags.up.see v) i)
      (H.date (H.asks.flags.up.see v).2.2) (H.id (H.asks.flags.up.see v).2.2)) (H.copy i.fcc) (by simp only [hsee]; rfl)
    ((copy_map hsee i.fcc).symm) hout.symm rfl (by rw [hacts]; rfl)
  refine ⟨andDoes s l, _, ?_, .notify h2 ((h4 a).2 rfl) ((h5 H.letters _ _ _ _).1 rfl) h6, rep_does h l _ rfl⟩
  rw [← h7]
  simp only [Host.notify, h1]

/-- `vacation`, once its test is true. -/
theorem vacation_does {ans : Nat → Bool} {g : Got F} (hr : Core.Read x (.cmd .Vacation g)) {s : FlagLang.St F}
    {st : Base.State (Text × W) (Expr.Val F) Core.Place} (h : Rep H ans w s st) :
    ∃ s' st', Base.command cfg st (H.vacation cfg.maxOut cfg.maxReceived g) = some (st', false) ∧ Does H cfg w (.cmd .Vacation g) s s' false ∧
      Rep H ans w s' st' := by
  obtain ⟨e, has, ts, r, he, hr⟩ := hr
  obtain ⟨i, v, h1, h2, h3⟩ := Written.vacation_reply_written_partial (N := N) x has he hr
  have hsee : H.asks.flags.up.see st.view = (s.vars, (s.flags, w)) := h.1.core.seen
  have hout : st.view.numOut = Core.outgoing s.core.acts := h.1.core.out
  have hacts : st.acts = s.core.acts := h.1.core.acts
  obtain ⟨h4, h5, m, h6, h7⟩ := h3 (look H w s) H.names (H.raw w) (H.date w) (H.id w) (replies H cfg w s)
  refine ⟨_, _, ?_, .vacation h2 ⟨h5, m, (h6 m).2 rfl, fun h8 h9 => h7 h8 h9.date h9.id h9.prefix h9.default h9.user h9.envelope h9.subject h9.sender
    h9.headers h9.raw⟩ h4, rep_does h _ 1 rfl⟩
  simp only [Host.vacation, h1, Base.command, Base.mail, copy_map hsee, hsee, hacts]
  simp only [hout]
  rfl

/-- The question of `vacation`. -/
theorem vacation_says {ans : Nat → Bool} (hl : Vacation.Letters (H.asks.flags.vars.core.env w).x) {g : Got F} (hr : Core.Read x (.cmd .Vacation g))
    {s : FlagLang.St F} {st : Base.State (Text × W) (Expr.Val F) Core.Place} (ha : H.asks.flags.up.accepts g = true) (h : Rep H ans w s st) :
    ∃ b st' s', Base.atomTruth (H.interp cfg notV hnot) st (.leaf (.cmd .Vacation g)) = some (b, st') ∧ Says H cfg ans w t (.cmd .Vacation g) s b s' ∧
      Rep H ans w s' st' := by
  obtain ⟨e, has, ts, r, he, hr⟩ := hr
  obtain ⟨i, v, h1, h2, h3⟩ := Written.vacation_written (N := N) x has he hr
  obtain ⟨a, h4, h5⟩ := h3 (look H w s) hl
  have hsee : H.asks.flags.up.see st.view = (s.vars, (s.flags, w)) := h.1.core.seen
  have hout : st.view.numOut = Core.outgoing s.core.acts := h.1.core.out
  have hacts : st.acts = s.core.acts := h.1.core.acts
  have e1 : H.mayReply cfg.maxOut cfg.maxReceived g st.view =
      match Written.vacationTest (look H w s) (replies H cfg w s) i with
      | some (p, isNot) => .event (.duplicate ⟨p.id, p.expiry, p.last⟩) isNot
      | none => .bool false := by
    simp only [Host.mayReply, h1, hsee, hout]
    rfl
  cases hq : Written.vacationTest (look H w s) (replies H cfg w s) i with
  | none =>
    rw [hq] at e1
    refine ⟨false, st, s, by simp [Base.atomTruth, Host.interp, ha, e1], .mayNot h2 ((h4 a).2 rfl) fun to_ hm => ?_, h⟩
    have := (h5 (replies H cfg w s) _ _).2 ⟨to_, hm, rfl, rfl⟩
    rw [hq] at this
    cases this
  | some q =>
    obtain ⟨p, isNot⟩ := q
    obtain ⟨to_, h6, h7, h8⟩ := (h5 (replies H cfg w s) _ _).1 hq
    rw [hq] at e1
    subst h7 h8
    refine ⟨!ans (Base.asked s.core.acts), _, _, ?_, .may h2 ((h4 a).2 rfl) h6, rep_does h _ 0 rfl⟩
    simp [Base.atomTruth, Host.interp, ha, e1, hacts, h.2]
    rfl

/-- The instructions do what the language says. -/
theorem models (hs : Sees H w t) (hf : FlagLang.Fits H.asks.flags cfg w) (ans : Nat → Bool) :
    Lang.Models (H.interp cfg notV hnot) (Core.Read x) (MailTest H) (MailCmd H cfg) (Says H cfg ans w t) (Does H cfg w) (Rep H ans w) where
  test := by
    intro n s st hr hp h
    rcases hp with hp | ⟨ha, g, rfl⟩
    · obtain ⟨b, v, s', h1, h2, h3⟩ := (AskLang.models (x := x) (notV := notV) (hnot := hnot) hs.asks hf ans).test n s st hr hp h
      refine ⟨b, v, s', ?_, .test h2, h3⟩
      rw [← h1]
      cases n with
      | test c g => rfl
      | _ => exact hp.2.elim
    · exact vacation_says hs.letters hr ((accepts_iff _ _).2 ha) h
  cmd := by
    intro n s st hr hc h
    show ∃ s' b st', Base.command cfg st (H.act cfg.maxOut cfg.maxReceived n) = _ ∧ _
    rcases hc with hc | ⟨ha, g, rfl | rfl⟩
    · obtain ⟨s', b, st', h1, h2, h3⟩ := FlagLang.command_does hf hr hc h.1
      exact ⟨s', b, st', by rw [flag_act hc]; exact h1, .flags h2, h3, (AskLang.command_answers h1).trans h.2⟩
    · obtain ⟨s', st', h1, h2, h3⟩ := notify_does (cfg := cfg) hr h
      have ha : H.asks.flags.up.accepts g = true := (accepts_iff _ _).2 ha
      exact ⟨s', false, st', by simp only [Host.act, ha, if_true]; exact h1, h2, h3⟩
    · obtain ⟨s', st', h1, h2, h3⟩ := vacation_does (cfg := cfg) hr h
      have ha : H.asks.flags.up.accepts g = true := (accepts_iff _ _).2 ha
      exact ⟨s', false, st', by simp only [Host.act, ha, if_true]; exact h1, h2, h3⟩

end

/-! ## C125 -/

theorem act_edit (H : Host W F N) (maxOut maxReceived : Nat) (n : Script.Node F) (f) : H.act maxOut maxReceived n ≠ .edit f := by
  unfold Host.act
  split
  · split
    · unfold Host.notify
      split <;> simp
    · simp
  · split
    · unfold Host.vacation
      split <;> simp
    · simp
  · exact FlagLang.act_edit _ _ f

open Vm in
/-- **C125** A text with notifications and vacation replies does what it says.  The host hands over the script that the compiler has made of
a text, and answers all events by `true` or `false`, the first, second, … question by `ans 0`, `ans 1`, ….  Then the script runs to actions
as `Runs` says: a notification does what RFC 5435 and 5436 have its arguments say at that moment (C90); the question of a vacation reply is
put exactly if the message may be replied to (C40), and the reply is sent, to the sender of the message and with the contents that the
arguments say (C41), exactly if the host has not replied before; the messages that are made are numbered in their order, and the limit
counts those that were sent.  If no action after a `keep` cancels the implicit keep and the limit of instructions is not exceeded, the host is
told the questions, messages, notifications and deliveries in their order, then what becomes of the message, and nothing else.

The full claim would have no condition `KeepsLast` (`Base.kept_message_lost`), and would say what a reply is in the cases that `ReplyIs`
leaves open (C41: line breaks in its header, several senders, `:mime`). -/
theorem mails_text_partial [DecidableEq N] {lx : Lex.Ext Word F} {x : Args.Ext F} {lim : Compile.Limits} {maxSize : Nat}
    {H : Host W F N} {cfg : Cfg (Text × W) (Expr.Val F) Core.Place} {notV : Expr.Val F → Expr.Val F}
    {hnot : ∀ v, cfg.toBool (notV v) = !cfg.toBool v} {w : W} {t : Mime.Tree}
    {src : Vm.Script (Text × W) (Expr.Val F) Core.Place → Whole.Prog F} {n : Vm.Name} {s : Vm.Script (Text × W) (Expr.Val F) Core.Place} {r m}
    (hS : Sees H w t) (hF : FlagLang.Fits H.asks.flags cfg w) (hE : ∀ v, cfg.isEmpty v = true → v = cfg.empty)
    (hV : s.numVars = H.asks.flags.vars.names.length)
    (hh : Hist cfg (Ctx.new ([], w)) (.input (.script n s) :: r) m) (ha : Accepted s) (hA : Base.Answers (Source.io r))
    {ans : Nat → Bool} (hQ : Base.Answered ans (Source.io r))
    (hC : .output (.error .cpuLimit) ∉ Source.io r) (hs : Whole.FromText lx x lim maxSize (H.interp cfg notV hnot) src s)
    (hreg : ∀ n s, cfg.registered n = some s → Whole.FromText lx x lim maxSize (H.interp cfg notV hnot) src s)
    (hmail : Mailing H cfg (src s)) :
    ∃ st stopped, Runs H cfg ans w t (src s) (FlagLang.start H.asks.flags) st stopped ∧ (Base.KeepsLast st.core.acts →
      (∀ o, .output o ∈ Source.io r → o = .none ∨ ∃ e, o = .event e) ∧
      ∃ l, Core.Finally (FlagLang.withFlags H.asks.flags).core (st.flags, w) st.core.acts l ∧
        Base.told (Source.io r) <+: Base.sent st.core.acts ++ l ∧
        (.output .none ∈ Source.io r → Base.told (Source.io r) = Base.sent st.core.acts ++ l)) := by
  obtain ⟨text, ops, h1, -, -⟩ := hs.compiled
  have h0 : Rep H ans w (FlagLang.start H.asks.flags) (Base.initial cfg ([], w) H.asks.flags.vars.names.length s.numMatchVars ans) :=
    ⟨FlagLang.rep_start H.asks.flags hF s.numMatchVars ans, rfl⟩
  rw [← hV] at h0
  have hread : ∀ k ∈ (src s).toks, Lang.TokIn (Core.Read x) k := fun k hk => by
    have := Core.structure_read h1 k hk
    cases k <;> exact this
  obtain ⟨st, b, bst, h2, h3, h4, -⟩ := Lang.block_runs (models (x := x) (notV := notV) (hnot := hnot) hS hF ans) (src s) hread hmail h0
  refine ⟨st, b, h3, fun hk => ?_⟩
  have ho : Base.outcome (H.interp cfg notV hnot) (src s) ([], w) s.numVars s.numMatchVars ans = some bst := by
    unfold Base.outcome
    rw [h2]
    rfl
  have hu := Base.outcome_untouched (fun a f => act_edit H cfg.maxOut cfg.maxReceived a f) ho
  rw [← h4.core.acts] at hk ⊢
  obtain ⟨h5, l, h6, h7⟩ := Base.base_text_partial hE hh ha hA hQ hC hs hreg ho hk hu.upToDate
  refine ⟨h5, l, ⟨fun fl hfl => ?_, h6.discard, h6.other⟩, h7⟩
  rw [hu.last h6 hfl, h4.core.world, (hF.vars st.flags).core.flags]

end Sieve.MailLang
