import Verif.BaseLemmas
import Verif.SourceProps

/-!
# C113: scripts of the base language do what RFC 5228 says
-/

namespace Sieve.Base

open Sieve.Vm Sieve.Compile Sieve.Source

variable {W V P A T E : Type} {cfg : Cfg W V P}

/-! ## Commands -/

def stateOf (c : Ctx W V P) (acts : List (Action P)) (ans : Nat → Bool) : State W V P :=
  ⟨c.view, c.numRedirects, acts, ans, c.hasChanges⟩

/-- The state of the interpreter after the actions `acts`, all of which the host has been told. -/
structure Ok (c : Ctx W V P) (acts : List (Action P)) : Prop where
  final : c.final = fin acts
  queue : c.queue = []
  main : c.mainId = current acts
  last : c.lastId = made acts
  stack : ∃ fr, c.stack = [fr]

theorem build_final (c : Ctx W V P) (f : Option (Event P)) :
    buildMessageId cfg { c with final := f } = ((buildMessageId cfg c).1, { (buildMessageId cfg c).2 with final := f }) := by
  cases hc : c.hasChanges <;> simp [buildMessageId, hc]

theorem build_same (c : Ctx W V P) : (buildMessageId cfg c).2.final = c.final := by
  cases hc : c.hasChanges <;> simp [buildMessageId, hc]

/-- Writing the message down, as the interpreter does it. -/
theorem build_writeDown {c : Ctx W V P} {acts : List (Action P)} {ans : Nat → Bool} (ok : Ok c acts) :
    ∃ acts', stateOf (buildMessageId cfg c).2 acts' ans = writeDown cfg (stateOf c acts ans) ∧ Ok (buildMessageId cfg c).2 acts' ∧
      sent acts' = sent acts ++ (buildMessageId cfg c).1 ∧ (buildMessageId cfg c).2.stack = c.stack ∧
      (buildMessageId cfg c).2.view = c.view ∧ (buildMessageId cfg c).2.numRedirects = c.numRedirects ∧
      ((buildMessageId cfg c).1 = [] ∨ ∃ e, (buildMessageId cfg c).1 = [e]) := by
  cases hc : c.hasChanges with
  | false =>
    have hb : buildMessageId cfg c = ([], c) := by simp [buildMessageId, hc]
    rw [hb]
    refine ⟨acts, ?_, ok, by simp, rfl, rfl, rfl, .inl rfl⟩
    simp [writeDown, stateOf, hc]
  | true =>
    have hb : buildMessageId cfg c = ([.created (c.lastId + 1) (cfg.render c.world)],
        { c with lastId := c.lastId + 1, mainId := c.lastId + 1, hasChanges := false }) := by simp [buildMessageId, hc]
    rw [hb]
    refine ⟨acts ++ [.version (made acts + 1) (cfg.render c.world)], ?_,
      ⟨by rw [fin_append]; exact ok.final, ok.queue, by rw [current_append, ← ok.last]; rfl, by rw [made_append, ← ok.last]; rfl, ok.stack⟩, ?_, rfl,
      rfl, rfl, .inr ⟨_, rfl⟩⟩
    · simp [writeDown, stateOf, hc, Ctx.view]
    · rw [sent_append, ok.last]; rfl

theorem exec_command (hE : ∀ v, cfg.isEmpty v = true → v = cfg.empty) {c : Ctx W V P} {acts : List (Action P)} {ans : Nat → Bool} (ok : Ok c acts)
    {i : Instr W V P} {s' : State W V P} (h : command cfg (stateOf c acts ans) i = some (s', false)) :
    suspends i c.view = false ∧ ∃ acts' c', s' = stateOf c' acts' ans ∧ Ok c' acts' ∧ c'.stack = c.stack ∧
      ((exec cfg c i = .cont c' ∧ sent acts' = sent acts) ∨
       ∃ e q, exec cfg c i = .ret (.event e) { c' with queue := q } ∧ sent acts' = sent acts ++ e :: q) := by
  obtain ⟨wd, wd1, okw, wd2, wd3, wd5, wd6, wd7⟩ := build_writeDown (cfg := cfg) (ans := ans) ok
  cases i with
  | keep flags =>
    simp only [command, Option.some.injEq, Prod.mk.injEq, and_true] at h
    refine ⟨rfl, wd ++ [.keep (flags c.view)], { (buildMessageId cfg c).2 with final := some (.keep (flags c.view) (buildMessageId cfg c).2.mainId) },
      ?_, ?_, wd3, ?_⟩
    · rw [← h, ← wd1]; rfl
    · exact ⟨by rw [fin_append, okw.main]; rfl, okw.queue, by rw [current_append]; exact okw.main, by rw [made_append]; exact okw.last, okw.stack⟩
    · rcases wd7 with e | ⟨x, e⟩
      · refine .inl ⟨by simp only [exec, e], ?_⟩
        simp [sent_append, wd2, e, sentFrom]
      · refine .inr ⟨x, [], ?_, by simp [sent_append, wd2, e, sentFrom]⟩
        simp only [exec, e]
        have := okw.queue
        congr 1
        rw [← this]
  | discard =>
    simp only [command, Option.some.injEq, Prod.mk.injEq, and_true] at h
    refine ⟨rfl, acts ++ [.discard], { c with final := some .discard }, ?_, ?_, rfl, .inl ⟨rfl, ?_⟩⟩
    · rw [← h]; rfl
    · exact ⟨by rw [fin_append]; rfl, ok.queue, by rw [current_append]; exact ok.main, by rw [made_append]; exact ok.last, ok.stack⟩
    · simp [sent_append, sentFrom]
  | fileInto copy dest flags =>
    simp only [command, Option.some.injEq, Prod.mk.injEq, and_true] at h
    have hfin : (execFileInto cfg c copy dest flags).final = finStep (current wd) (fin wd) (.fileinto copy (dest c.view) (flags c.view)) := by
      simp only [execFileInto, okw.final, finStep]
      split
      · rename_i e; rw [e]
      · rename_i hn
        cases hf : fin wd with
        | none => rfl
        | some ev =>
          cases ev with
          | keep fs i =>
            cases fs with
            | nil => rfl
            | cons g gs => exact absurd hf (hn _ _ _)
          | _ => rfl
    have hq : (execFileInto cfg c copy dest flags).queue = (buildMessageId cfg c).1 ++ [.fileInto (dest c.view) (flags c.view) (current wd)] := by
      simp only [execFileInto, okw.main]
    have hsent : sent (wd ++ [.fileinto copy (dest c.view) (flags c.view)]) = sent acts ++ (execFileInto cfg c copy dest flags).queue := by
      rw [hq]; simp [sent_append, wd2, sentFrom]
    refine ⟨rfl, wd ++ [.fileinto copy (dest c.view) (flags c.view)], { (execFileInto cfg c copy dest flags) with queue := [] }, ?_, ?_, wd3, .inr ?_⟩
    · rw [← h, ← wd1]; rfl
    · exact ⟨by rw [fin_append]; exact hfin, rfl, by rw [current_append]; exact okw.main, by rw [made_append]; exact okw.last, okw.stack⟩
    · rw [hsent]
      rcases wd7 with e | ⟨x, e⟩
      · exact ⟨_, [], by simp only [exec, drain, hq, e, List.nil_append]; rfl, by rw [hq, e]; rfl⟩
      · exact ⟨x, [_], by simp only [exec, drain, hq, e, List.cons_append, List.nil_append]; rfl, by rw [hq, e]; rfl⟩
  | edit f =>
    simp only [command, Option.some.injEq, Prod.mk.injEq, and_true] at h
    exact ⟨rfl, acts, { c with world := (f c.view).1, hasChanges := c.hasChanges || (f c.view).2 }, by rw [← h]; rfl,
      ⟨ok.final, ok.queue, ok.main, ok.last, ok.stack⟩, rfl, .inl ⟨rfl, rfl⟩⟩
  | reject reason =>
    simp only [command, Option.some.injEq, Prod.mk.injEq, and_true] at h
    refine ⟨rfl, acts ++ [.reject (reason c.view)], { c with final := none }, ?_, ?_, rfl, .inr ⟨.reject (reason c.view), [], ?_, ?_⟩⟩
    · rw [← h]; rfl
    · exact ⟨by rw [fin_append]; rfl, ok.queue, by rw [current_append]; exact ok.main, by rw [made_append]; exact ok.last, ok.stack⟩
    · simp [exec, ← ok.queue]
    · simp [sent_append, sentFrom]
  | notify f fcc =>
    refine ⟨rfl, ?_⟩
    simp only [command] at h
    have same : exec cfg c (.notify f fcc) = drain (execNotify cfg c f fcc) := rfl
    cases hf : f c.view with
    | none =>
      rw [show f (stateOf c acts ans).view = none from hf] at h
      simp only [Option.some.injEq, Prod.mk.injEq, and_true] at h
      refine ⟨acts, c, h.symm, ok, rfl, .inl ⟨?_, rfl⟩⟩
      rw [same, execNotify, hf]
      simp [drain, ok.queue]
    | some r =>
      rw [show f (stateOf c acts ans).view = some r from hf] at h
      have other : (∀ m, r.method = .mailto m → ¬ c.numOut < cfg.maxOut) → s' = notice (stateOf c acts ans) r.event r.plain fcc →
          ∃ acts' c', s' = stateOf c' acts' ans ∧ Ok c' acts' ∧ c'.stack = c.stack ∧
          ((exec cfg c (.notify f fcc) = .cont c' ∧ sent acts' = sent acts) ∨
            ∃ e q, exec cfg c (.notify f fcc) = .ret (.event e) { c' with queue := q } ∧ sent acts' = sent acts ++ e :: q) := by
        intro hm hs
        obtain ⟨m, pl, ev⟩ := r
        cases fcc with
        | none =>
          have key : execNotify cfg c f none = { c with numOut := c.numOut + 1, queue := [.notify ev] } := by
            rw [execNotify, hf]
            cases m with
            | other => cases decide (c.numOut < cfg.maxOut) <;> rfl
            | mailto m => simp only [decide_eq_false (hm m rfl)]
          rw [same, key, hs]
          refine ⟨acts ++ [.notify ev none], { c with numOut := c.numOut + 1, queue := [] }, rfl,
            ⟨by rw [fin_append]; exact ok.final, rfl, by rw [current_append]; exact ok.main, by rw [made_append]; exact ok.last, ok.stack⟩, rfl,
            .inr ⟨.notify ev, [], rfl, by simp [sent_append, sentFrom]⟩⟩
        | some g =>
          have key : execNotify cfg c f (some g) = { c with
              lastId := c.lastId + 1
              numOut := c.numOut + 1
              queue := [.created (c.lastId + 1) pl, .notify ev, .fileInto (g c.view).1 (g c.view).2 (c.lastId + 1)] } := by
            rw [execNotify, hf]
            cases m with
            | other => cases decide (c.numOut < cfg.maxOut) <;> rfl
            | mailto m => simp only [decide_eq_false (hm m rfl)]
          rw [same, key, hs]
          refine ⟨acts ++ [.notify ev (some (made acts + 1, pl, g c.view))],
            { c with lastId := c.lastId + 1, numOut := c.numOut + 1, queue := [] }, rfl,
            ⟨by rw [fin_append]; exact ok.final, rfl, by rw [current_append]; exact ok.main, by rw [made_append, ← ok.last]; rfl, ok.stack⟩, rfl,
            .inr ⟨.created (c.lastId + 1) pl, [.notify ev, .fileInto (g c.view).1 (g c.view).2 (c.lastId + 1)], rfl, ?_⟩⟩
          rw [sent_append, ok.last]
          rfl
      cases hr : r.method with
      | other =>
        simp only [hr, Option.some.injEq, Prod.mk.injEq, and_true] at h
        exact other (by simp [hr]) h.symm
      | mailto m =>
        simp only [hr] at h
        by_cases hn : c.numOut < cfg.maxOut
        · rw [if_pos (show (stateOf c acts ans).view.numOut < cfg.maxOut from hn)] at h
          have hn' : decide (c.numOut < cfg.maxOut) = true := decide_eq_true hn
          cases m with
          | none =>
            simp only [Option.some.injEq, Prod.mk.injEq, and_true] at h
            refine ⟨acts, c, h.symm, ok, rfl, .inl ⟨?_, rfl⟩⟩
            rw [same, execNotify, hf]
            simp only [hr, hn', drain, ok.queue]
          | some k =>
            obtain ⟨rcpt, msg⟩ := k
            simp only [Option.some.injEq, Prod.mk.injEq, and_true] at h
            refine ⟨acts ++ [.mail .notify (made acts + 1) msg rcpt (fcc.map fun g => g c.view)], { c with lastId := c.lastId + 1, queue := [] },
              by rw [← h]; rfl, ⟨by rw [fin_append]; exact ok.final, rfl, by rw [current_append]; exact ok.main, by rw [made_append, ← ok.last]; rfl, ok.stack⟩, rfl,
              .inr ⟨.created (c.lastId + 1) msg, .send .notify rcpt (c.lastId + 1) :: fccEvents c fcc (c.lastId + 1), ?_, ?_⟩⟩
            · rw [same, execNotify, hf]
              simp only [hr, hn', drain, List.cons_append, List.nil_append]
            · rw [sent_append, ok.last]
              cases fcc <;> rfl
        · rw [if_neg (show ¬ (stateOf c acts ans).view.numOut < cfg.maxOut from hn)] at h
          simp only [Option.some.injEq, Prod.mk.injEq, and_true] at h
          exact other (fun _ _ => hn) h.symm
  | vacation f fcc =>
    simp only [command, Option.some.injEq, Prod.mk.injEq, and_true] at h
    refine ⟨rfl, acts ++ [.mail .vacation (made acts + 1) (f c.view).1 (f c.view).2 (fcc.map fun g => g c.view)],
      { c with lastId := c.lastId + 1, numOut := c.numOut + 1, queue := [] }, by rw [← h]; rfl,
      ⟨by rw [fin_append]; exact ok.final, rfl, by rw [current_append]; exact ok.main, by rw [made_append, ← ok.last]; rfl, ok.stack⟩, rfl,
      .inr ⟨.created (c.lastId + 1) (f c.view).1, .send .vacation (f c.view).2 (c.lastId + 1) :: fccEvents c fcc (c.lastId + 1), rfl, ?_⟩⟩
    rw [sent_append, ok.last]
    cases fcc <;> rfl
  | redirect list copy addr =>
    refine ⟨rfl, ?_⟩
    simp only [command] at h
    have same : exec cfg c (.redirect list copy addr) = drain (execRedirect cfg c list copy addr) := rfl
    cases ha : addr c.view with
    | none =>
      rw [show addr (stateOf c acts ans).view = none from ha] at h
      simp only [Option.some.injEq, Prod.mk.injEq, and_true] at h
      refine ⟨acts, c, h.symm, ok, rfl, .inl ⟨?_, rfl⟩⟩
      rw [same, execRedirect, ha]
      simp [drain, ok.queue]
    | some a =>
      rw [show addr (stateOf c acts ans).view = some a from ha] at h
      by_cases hm : MayRedirect cfg (stateOf c acts ans) list a = true
      · simp only [hm, if_true, Option.some.injEq, Prod.mk.injEq, and_true] at h
        simp only [MayRedirect, stateOf, Ctx.view, Bool.and_eq_true, decide_eq_true_eq] at hm
        obtain ⟨⟨⟨h1, h2⟩, h3⟩, ho⟩ := hm
        have ho' : (!list && cfg.own c.world a) = false := by
          cases list <;> simp_all
        have he : execRedirect cfg c list copy addr = { (buildMessageId cfg c).2 with
            final := (match c.final with
              | some (.keep fs i) => if copy then some (.keep fs i) else none
              | e => e)
            numRedirects := (buildMessageId cfg c).2.numRedirects + 1, numOut := (buildMessageId cfg c).2.numOut + 1,
            queue := (buildMessageId cfg c).1 ++ [.send .redirect a (current wd)] } := by
          simp only [execRedirect, ha, ho', Bool.false_eq_true, if_false]
          rw [build_final, ← okw.main]
          exact if_pos ⟨of_decide_eq_true h1, of_decide_eq_true h2, of_decide_eq_true h3⟩
        have hfin : c.final = fin wd := by
          rw [← okw.final]
          exact (build_same c).symm
        have hn : (buildMessageId cfg c).2.numOut = c.numOut := congrArg (·.numOut) wd5
        have hsent : sent (wd ++ [.redirect copy a]) = sent acts ++ ((buildMessageId cfg c).1 ++ [.send .redirect a (current wd)]) := by
          simp [sent_append, wd2, sentFrom]
        refine ⟨wd ++ [.redirect copy a], { (execRedirect cfg c list copy addr) with queue := [] }, ?_, ?_, ?_, .inr ?_⟩
        · rw [← h, ← wd1, he]
          simp only [stateOf, andDoes, State.mk.injEq, wd6, and_true, true_and]
          show _ = ({ (buildMessageId cfg c).2.view with numOut := (buildMessageId cfg c).2.numOut + 1 } : View W V)
          rw [wd5, hn]
          rfl
        · rw [he]
          exact ⟨by rw [fin_append, hfin]; rfl, rfl, by rw [current_append]; exact okw.main, by rw [made_append]; exact okw.last, okw.stack⟩
        · rw [he]; exact wd3
        · rw [same, he, hsent]
          rcases wd7 with e | ⟨x, e⟩
          · exact ⟨_, [], by simp only [drain, e, List.nil_append]; rfl, by rw [e]; rfl⟩
          · exact ⟨x, [_], by simp only [drain, e, List.cons_append, List.nil_append]; rfl, by rw [e]; rfl⟩
      · simp only [hm, Bool.false_eq_true, if_false, Option.some.injEq, Prod.mk.injEq, and_true] at h
        refine ⟨acts, c, h.symm, ok, rfl, .inl ⟨?_, rfl⟩⟩
        have he : execRedirect cfg c list copy addr = c := by
          simp only [execRedirect, ha]
          split
          · rename_i hl
            split
            · rfl
            · rename_i ho
              refine absurd ?_ hm
              simp only [MayRedirect, stateOf, Ctx.view, hl, decide_true, Bool.true_and]
              cases list <;> simp_all
          · rfl
        rw [same, he]
        simp [drain, ok.queue]
  | assign t f =>
    cases t with
    | «local» i =>
      simp only [command, Option.some.injEq, Prod.mk.injEq, and_true] at h
      refine ⟨rfl, acts, { c with locals := c.locals.set i (f c.view) }, by rw [← h]; rfl,
        ⟨ok.final, ok.queue, ok.main, ok.last, ok.stack⟩, rfl, .inl ⟨?_, rfl⟩⟩
      simp [exec, setTarget, drain, ok.queue]
    | global g =>
      simp only [command, Option.some.injEq, Prod.mk.injEq, and_true] at h
      refine ⟨rfl, acts, { c with world := g c.world (f c.view) }, by rw [← h]; rfl,
        ⟨ok.final, ok.queue, ok.main, ok.last, ok.stack⟩, rfl, .inl ⟨?_, rfl⟩⟩
      simp [exec, setTarget, drain, ok.queue]
    | envelope g => simp [command] at h
    | other => simp [command] at h
  | editFlags t f =>
    cases t with
    | «local» i =>
      simp only [command, Option.some.injEq, Prod.mk.injEq, and_true] at h
      exact ⟨rfl, acts, { c with locals := c.locals.set i (f c.view) }, by rw [← h]; rfl,
        ⟨ok.final, ok.queue, ok.main, ok.last, ok.stack⟩, rfl, .inl ⟨rfl, rfl⟩⟩
    | global g =>
      simp only [command, Option.some.injEq, Prod.mk.injEq, and_true] at h
      exact ⟨rfl, acts, { c with world := g c.world (f c.view) }, by rw [← h]; rfl,
        ⟨ok.final, ok.queue, ok.main, ok.last, ok.stack⟩, rfl, .inl ⟨rfl, rfl⟩⟩
    | envelope g => simp [command] at h
    | other => simp [command] at h
  | require caps =>
    simp only [command] at h
    split at h
    · rename_i hc
      simp only [Option.some.injEq, Prod.mk.injEq, and_true] at h
      refine ⟨rfl, acts, c, h.symm, ok, rfl, .inl ⟨?_, rfl⟩⟩
      have : missingCap cfg caps = none := by
        simp only [missingCap, List.find?_eq_none]
        intro k hk
        simp [List.all_eq_true.1 hc k hk]
      simp [exec, this]
    · cases h
  | clear idx num mv =>
    simp only [command] at h
    split at h
    · rename_i hr
      simp only [Option.some.injEq, Prod.mk.injEq, and_true] at h
      refine ⟨rfl, acts, execClear cfg c idx num mv, ?_, ⟨ok.final, ok.queue, ok.main, ok.last, ok.stack⟩, rfl, .inl ⟨rfl, rfl⟩⟩
      have key : ∀ (p : Nat → Bool) (q : Nat → Prop) [DecidablePred q] (vs : List V), (∀ i, p i = true ↔ q i) →
          clearAt cfg p vs = vs.mapIdx fun i v => if q i then cfg.empty else v := by
        intro p q _ vs hpq
        simp only [clearAt]
        congr 1
        funext i v
        by_cases hq : q i
        · have hp := (hpq i).2 hq
          by_cases hv : cfg.isEmpty v = true
          · simp [hp, hq, hv, hE v hv]
          · simp [hp, hq, hv]
        · have hp : p i = false := by
            by_contra hc
            exact hq ((hpq i).1 (by simpa using hc))
          simp [hp, hq]
      have hr' : idx + num ≤ c.locals.length := hr
      rw [← h]
      simp only [stateOf, execClear, Ctx.view, if_pos hr']
      rw [key _ (fun i => idx ≤ i ∧ i < idx + num) _ (by simp), key _ (fun i => i ∈ mv) _ (by simp)]
    · cases h
  | _ => simp [command] at h

/-! ## The end of a script -/

/-- Nothing is left to do, except perhaps to tell the host something. -/
structure Over (c : Ctx W V P) : Prop where
  stack : c.stack = []
  final : c.final = none

theorem keepFlags_kept (s : State W V P) (fl : List String) : keepFlags cfg s.view.world fl = keptFlags cfg s fl := by
  simp only [keepFlags, keptFlags]
  cases fl with
  | nil => cases hg : cfg.globalFlags s.view.world <;> simp
  | cons f fs => simp

theorem keptAs_keptBy {s : State W V P} {fl : List String} {m : Nat} {l : List (Event P)} (h : KeptBy s.acts fl m) (hu : UpToDate s)
    (hl : KeptAs cfg s l) : if s.edited then fl = [] ∧ l = [.created (made s.acts + 1) (cfg.render s.view.world),
      .keep (keptFlags cfg s []) (made s.acts + 1)] else l = [.keep (keptFlags cfg s fl) m] := by
  cases hl with
  | explicit e hb =>
    obtain ⟨rfl, rfl⟩ := keptBy_unique h (.explicit e hb)
    rw [hu.explicit fl (by rw [e]; simp)]
    simp
  | implicit hc he =>
    obtain ⟨rfl, rfl⟩ := keptBy_unique h (.implicit hc)
    rcases hu.implicit hc with hu | hu
    · rw [he] at hu; cases hu
    · rw [he, hu]; simp
  | changed hc he =>
    obtain ⟨rfl, rfl⟩ := keptBy_unique h (.implicit hc)
    rw [he]; simp

theorem keptAs_kept {s : State W V P} {l : List (Event P)} (hl : KeptAs cfg s l) : ∃ fl, Kept s.acts fl := by
  cases hl with
  | explicit e hb => exact ⟨_, .explicit e hb⟩
  | implicit hc => exact ⟨_, .implicit hc⟩
  | changed hc => exact ⟨_, .implicit hc⟩

theorem finish_last {c : Ctx W V P} {acts : List (Action P)} {ans : Nat → Bool} (hf : c.final = fin acts) (hq : c.queue = [])
    (hm : c.lastId = made acts) (hs : c.stack = []) (hk : KeepsLast acts) (hu : UpToDate (stateOf c acts ans)) :
    ∃ l c' o, finish cfg c = .ret o c' ∧ Over c' ∧ Last cfg (stateOf c acts ans) l ∧
      (l = [] ∧ o = .none ∧ c'.queue = [] ∨ ∃ e, l = e :: c'.queue ∧ o = .event e) := by
  rcases fin_kept acts hk with ⟨fl, m, e, hkept⟩ | ⟨e, hn⟩
  · have hflags : keepFlags cfg c.world fl = keptFlags cfg (stateOf c acts ans) fl := keepFlags_kept (stateOf c acts ans) fl
    have hd : ¬ Discarded acts := by
      intro h
      rw [← fin_discarded, e] at h
      cases h
    have key := fun l => keptAs_keptBy (cfg := cfg) (s := stateOf c acts ans) (l := l) hkept hu
    cases hc : c.hasChanges with
    | false =>
      refine ⟨[.keep (keepFlags cfg c.world fl) m], { c with final := none }, .event (.keep (keepFlags cfg c.world fl) m), ?_,
        ⟨hs, rfl⟩, ⟨fun l' h' => ?_, fun h => absurd h hd, fun h => absurd ⟨fl, keptBy_kept.2 ⟨m, hkept⟩⟩ h⟩, .inr ⟨_, ?_, rfl⟩⟩
      · simp [finish, settle, hf, e, buildMessageId, hc]
      · have := key l' h'
        rw [show (stateOf c acts ans).edited = false from hc, if_neg (by simp)] at this
        rw [this, hflags]
      · show _ = _ :: c.queue
        rw [hq]
    | true =>
      have hfl : fl = [] := by
        cases hkept with
        | explicit e' hb =>
          have := hu.explicit fl (by show Action.keep fl ∈ acts; rw [e']; simp)
          rw [show (stateOf c acts ans).edited = true from hc] at this
          cases this
        | implicit _ => rfl
      refine ⟨[.created (c.lastId + 1) (cfg.render c.world), .keep (keepFlags cfg c.world fl) (c.lastId + 1)],
        { c with final := none, lastId := c.lastId + 1, mainId := c.lastId + 1, hasChanges := false,
                 queue := [.keep (keepFlags cfg c.world fl) (c.lastId + 1)] }, _, ?_,
        ⟨hs, rfl⟩, ⟨fun l' h' => ?_, fun h => absurd h hd, fun h => absurd ⟨fl, keptBy_kept.2 ⟨m, hkept⟩⟩ h⟩, .inr ⟨_, rfl, rfl⟩⟩
      · simp [finish, settle, hf, e, buildMessageId, hc]
      · have := key l' h'
        rw [show (stateOf c acts ans).edited = true from hc, if_pos rfl] at this
        rw [this.2, hflags, hfl, hm]
        rfl
  · rcases e with e | e
    · refine ⟨[.discard], { c with final := none }, .event .discard, ?_, ⟨hs, rfl⟩,
        ⟨fun fl h => absurd (keptAs_kept h) hn, fun _ => rfl, fun _ h => absurd ((fin_discarded acts).1 e) h⟩, .inr ⟨_, ?_, rfl⟩⟩
      · simp [finish, settle, hf, e]
      · show _ = _ :: c.queue
        rw [hq]
    · refine ⟨[], c, .none, ?_, ⟨hs, hf.trans e⟩, ⟨fun fl h => absurd (keptAs_kept h) hn, fun h => ?_, fun _ _ => rfl⟩, .inl ⟨rfl, rfl, hq⟩⟩
      · simp [finish, settle, hf, e]
      · have h := (fin_discarded acts).2 h
        rw [e] at h
        cases h

/-! ## One step -/

/-- The script is running, has taken the actions `acts` and will end in the state `st`. -/
def Going (I : Interp cfg A T E) (ans : Nat → Bool) (st : State W V P) (c : Conf W V P A T E) (acts : List (Action P)) : Prop :=
  ∃ K, c.todo = [K] ∧ Ok c.ctx acts ∧ Wf K ∧ ∃ q, todo I K c.ctx.testResult (stateOf c.ctx acts ans) = some (st, q)

/-- The same while the host has the word, and perhaps will be told more of the last action. -/
def Paused (I : Interp cfg A T E) (ans : Nat → Bool) (st : State W V P) (c : Conf W V P A T E) (acts : List (Action P)) : Prop :=
  ∃ K, c.todo = [K] ∧ Ok { c.ctx with queue := [] } acts ∧ Wf K ∧ starts K = false ∧ ∃ q, todo I K c.ctx.testResult (stateOf c.ctx acts ans) = some (st, q)

/-- The host is asked `p`; then the script goes on with the answer. -/
def Asking (I : Interp cfg A T E) (ans : Nat → Bool) (st : State W V P) (c : Conf W V P A T E) (acts : List (Action P)) (p : P) : Prop :=
  ∃ K, c.todo = [K] ∧ Ok c.ctx (acts ++ [.ask p]) ∧ Wf K ∧
    ∃ q, todo I K (c.ctx.testResult ^^ ans (asked acts)) (stateOf c.ctx (acts ++ [.ask p]) ans) = some (st, q)

/-- The script is over after the events `l`. -/
def Ended (c : Conf W V P A T E) : Prop := c.todo = [] ∧ Over c.ctx

theorem KeptAs.of {s s' : State W V P} {l} (h : KeptAs cfg s l) (ha : s'.acts = s.acts) (hw : s'.view.world = s.view.world)
    (he : s'.edited = s.edited) : KeptAs cfg s' l := by
  have hf : ∀ fl, keptFlags cfg s fl = keptFlags cfg s' fl := fun fl => by rw [keptFlags, keptFlags, hw]
  cases h with
  | explicit e hb => rw [hf]; exact .explicit (ha.trans e) hb
  | implicit h1 h2 => rw [hf, ← ha]; exact .implicit (ha ▸ h1) (he.trans h2)
  | changed h1 h2 => rw [hf, ← ha, ← hw]; exact .changed (ha ▸ h1) (he.trans h2)

theorem Last.of {s s' : State W V P} {l} (h : Last cfg s l) (ha : s'.acts = s.acts) (hw : s'.view.world = s.view.world)
    (he : s'.edited = s.edited) : Last cfg s' l := by
  constructor
  · exact fun l' h' => h.keep l' (h'.of ha.symm hw.symm he.symm)
  · rw [ha]; exact h.discard
  · rw [ha]; exact h.other

theorem leaveAll_wf : ∀ (K : Todo A T E) (c : Ctx W V P), Wf K → leaveAll K c = c
  | [], _, _ => rfl
  | .blk _ :: K, c, h => leaveAll_wf K c h.2
  | .ops _ :: K, c, h => leaveAll_wf K c h.2
  | .clear _ :: K, c, h => leaveAll_wf K c h.2
  | .branch _ :: K, c, h => leaveAll_wf K c h.2
  | .test _ :: K, c, h => leaveAll_wf K c h
  | .tests _ _ :: K, c, h => leaveAll_wf K c h
  | .neg :: K, c, h => leaveAll_wf K c h
  | .more _ _ :: K, c, h => leaveAll_wf K c h
  | .ev _ :: _, _, h => h.elim
  | .vac _ :: K, c, h => leaveAll_wf K c h.2
  | .loop _ _ _ :: _, _, h => h.elim
  | .parts _ _ _ :: _, _, h => h.elim

theorem command_stop {s s' : State W V P} {i : Instr W V P} (h : command cfg s i = some (s', true)) : i = .stop ∧ s' = s := by
  cases i with
  | stop => simp only [command, Option.some.injEq, Prod.mk.injEq, and_true] at h; exact ⟨rfl, h.symm⟩
  | redirect l c a => simp only [command] at h; split at h <;> [simp at h; (split at h <;> simp at h)]
  | assign t f => cases t <;> simp [command] at h
  | editFlags t f => cases t <;> simp [command] at h
  | notify f fcc =>
    simp only [command] at h
    split at h
    · simp at h
    · split at h
      · simp at h
      · split at h
        · split at h <;> simp at h
        · simp at h
  | require caps => simp only [command] at h; split at h <;> simp at h
  | clear a b c => simp only [command] at h; split at h <;> simp at h
  | _ => simp [command] at h

theorem sync_same (src : Script W V P → Blk A T E) (K : Todo A T E) {st : List (Frame W V P)} (h : ∃ fr, st = [fr]) :
    sync src [K] st = [K] := by
  obtain ⟨fr, rfl⟩ := h
  simp [sync]

/-- One step of a running script: it goes on, or the host is told of an action, or it ends. -/
theorem base_step (hE : ∀ v, cfg.isEmpty v = true → v = cfg.empty) {I : Interp cfg A T E} {src : Script W V P → Blk A T E}
    {ans : Nat → Bool} {st : State W V P} (hk : KeepsLast st.acts) (hu : UpToDate st) {c : Conf W V P A T E} {acts : List (Action P)}
    (hg : Going I ans st c acts) :
    (∃ c' acts', sstep I src c = .cont c' ∧ Going I ans st c' acts' ∧ sent acts' = sent acts) ∨
    (∃ e c' acts', sstep I src c = .ret (.event e) c' ∧ Paused I ans st c' acts' ∧ sent acts' = sent acts ++ e :: c'.ctx.queue) ∨
    (∃ o c' l, sstep I src c = .ret o c' ∧ Ended c' ∧ Last cfg st l ∧ st.acts = acts ∧
      (l = [] ∧ o = .none ∧ c'.ctx.queue = [] ∨ ∃ e, l = e :: c'.ctx.queue ∧ o = .event e)) ∨
    ∃ p c', sstep I src c = .ret (.event (.query p)) c' ∧ Asking I ans st c' acts p := by
  obtain ⟨ks, c⟩ := c
  obtain ⟨K, rfl, ok, wf, q, hd⟩ := hg
  have goOn : ∀ K' c', Ok c' acts → Wf K' → (∃ q, todo I K' c'.testResult (stateOf c' acts ans) = some (st, q)) →
      sstep I src ⟨[K], c⟩ = .cont ⟨[K'], c'⟩ →
      (∃ c' acts', sstep I src ⟨[K], c⟩ = .cont c' ∧ Going I ans st c' acts' ∧ sent acts' = sent acts) := by
    intro K' c' h1 h2 h3 h4
    exact ⟨_, acts, h4, ⟨K', rfl, h1, h2, h3⟩, rfl⟩
  match K with
  | [] =>
    right; right; left
    obtain ⟨fr, hfr⟩ := ok.stack
    have hfr : c.stack = [fr] := hfr
    simp only [todo, Option.some.injEq, Prod.mk.injEq] at hd
    obtain ⟨rfl, -⟩ := hd
    obtain ⟨l, c', o, h1, h2, h3, h4⟩ := finish_last (cfg := cfg) (acts := acts) (ans := ans)
      (c := { c with stack := [], pos := fr.prevPos, locals := fr.prevLocals, matchv := fr.prevMatch }) ok.final ok.queue ok.last rfl hk ⟨hu.explicit, hu.implicit⟩
    refine ⟨o, ⟨[], c'⟩, l, ?_, ⟨rfl, h2⟩, h3.of rfl rfl rfl, rfl, h4⟩
    simp only [sstep, leave, hfr, List.isEmpty_nil, if_true, h1]
  | .blk .nil :: K =>
    exact .inl (goOn K c ok wf.2 ⟨q, hd⟩ rfl)
  | .blk (.cons s b) :: K =>
    left
    have hd' : andThen (stmt I s (stateOf c acts ans)) (todo I (.blk b :: K) c.testResult) = some (st, q) := by
      rw [← hd]
      simp only [todo, block, andThen_assoc]
    have wf' : Wf (.blk b :: K) := wf
    cases s with
    | act is => exact goOn (.ops is :: .blk b :: K) c ok ⟨rfl, wf'⟩ ⟨q, hd'⟩ rfl
    | cond ch =>
      refine goOn (.test (Chain.test ch) :: .branch ch :: .blk b :: K) c ok ⟨rfl, wf'⟩ ⟨q, ?_⟩ rfl
      rw [← hd']
      have ind := fun t s => todo_indep I (.blk b :: K) rfl wf' t c.testResult s
      simp only [stmt]
      cases ch with
      | one t b' cl =>
        rw [chain, todo]
        simp only [Chain.test]
        rcases truth I t (stateOf c acts ans) with _ | ⟨r, v⟩
        · rfl
        · cases r
          · simp only [todo, Bool.false_eq_true, if_false]; exact ind _ _
          · simp only [todo, if_true, andThen_assoc]; exact congrArg _ (funext fun s => congrArg _ (funext fun s => ind _ s))
      | els t b' cl e cl' =>
        rw [chain, todo]
        simp only [Chain.test]
        rcases truth I t (stateOf c acts ans) with _ | ⟨r, v⟩
        · rfl
        · cases r
          · simp only [todo, Bool.false_eq_true, if_false, andThen_assoc]; exact congrArg _ (funext fun s => congrArg _ (funext fun s => ind _ s))
          · simp only [todo, if_true, andThen_assoc]; exact congrArg _ (funext fun s => congrArg _ (funext fun s => ind _ s))
      | elif t b' cl ch =>
        rw [chain, todo]
        simp only [Chain.test]
        rcases truth I t (stateOf c acts ans) with _ | ⟨r, v⟩
        · rfl
        · cases r
          · simp only [todo, Bool.false_eq_true, if_false]; exact congrArg _ (funext fun s => ind _ s)
          · simp only [todo, if_true, andThen_assoc]; exact congrArg _ (funext fun s => congrArg _ (funext fun s => ind _ s))
    | ret =>
      simp only [stmt, andThen, Option.some.injEq, Prod.mk.injEq] at hd'
      refine goOn [] c ok trivial ⟨false, by rw [← hd'.1]; rfl⟩ ?_
      show SStep.cont ⟨[[]], leaveAll (.blk b :: K) c⟩ = _
      rw [leaveAll_wf _ _ wf']
    | eval e => simp [stmt, andThen] at hd'
    | vac t a =>
      refine goOn (.test (.atom (.leaf t)) :: .vac a :: .blk b :: K) c ok ⟨rfl, wf'⟩ ⟨q, ?_⟩ rfl
      rw [← hd']
      have ind := fun t s => todo_indep I (.blk b :: K) rfl wf' t c.testResult s
      simp only [stmt]
      rw [todo]
      simp only [truth]
      rcases atomTruth I (stateOf c acts ans) (.leaf t) with _ | ⟨r, v⟩
      · rfl
      · cases r
        · simp only [todo, Bool.false_eq_true, if_false]; exact ind _ _
        · simp only [todo, if_true]; exact congrArg _ (funext fun s => ind _ s)
    | loop e b cl => simp [stmt, andThen] at hd'
    | parts l b cl => simp [stmt, andThen] at hd'
    | brk l => simp [stmt, andThen] at hd'
    | cont => simp [stmt, andThen] at hd'
  | .ops [] :: K => exact .inl (goOn K c ok wf.2 ⟨q, hd⟩ rfl)
  | .ops (a :: is) :: K =>
    have hs : sstep I src ⟨[.ops (a :: is) :: K], c⟩ = perform cfg src (.ops (a :: is) :: K) (.ops is :: K) [] c (I.act a) := rfl
    simp only [todo, commands] at hd
    rcases hc : command cfg (stateOf c acts ans) (I.act a) with _ | ⟨s', b⟩
    · rw [hc] at hd; simp [andThen] at hd
    · rw [hc] at hd
      cases b with
      | true =>
        right; right; left
        simp only [andThen, Option.some.injEq, Prod.mk.injEq] at hd
        obtain ⟨hi, rfl⟩ := command_stop hc
        obtain ⟨rfl, -⟩ := hd
        obtain ⟨l, c', o, h1, h2, h3, h4⟩ := finish_last (cfg := cfg) (c := { c with stack := [] }) (acts := acts) (ans := ans) ok.final ok.queue
          ok.last rfl hk ⟨hu.explicit, hu.implicit⟩
        refine ⟨o, ⟨[], c'⟩, l, ?_, ⟨rfl, h2⟩, h3.of rfl rfl rfl, rfl, h4⟩
        rw [hs, hi]
        simp only [perform, exec, h1, sync, h2.stack]
      | false =>
        obtain ⟨hsus, acts', c', rfl, ok', hst, h⟩ := exec_command hE ok hc
        have hd' : todo I (.ops is :: K) c'.testResult (stateOf c' acts' ans) = some (st, q) := by
          rw [← hd]
          exact todo_indep I (.ops is :: K) rfl wf _ _ _
        rcases h with ⟨h1, h2⟩ | ⟨e, qs, h1, h2⟩
        · left
          refine ⟨⟨[.ops is :: K], c'⟩, acts', ?_, ⟨_, rfl, ok', wf, q, hd'⟩, h2⟩
          rw [hs, perform, h1, hsus]
          simp only [Bool.false_eq_true, if_false, sync_same src _ ok'.stack]
        · right; left
          have okq : ({ c' with queue := [] } : Ctx W V P) = c' := by rw [← ok'.queue]
          refine ⟨e, ⟨[.ops is :: K], { c' with queue := qs }⟩, acts', ?_, ⟨_, rfl, okq ▸ ok', wf, rfl, q, hd'⟩, h2⟩
          rw [hs, perform, h1, hsus]
          simp only [Bool.false_eq_true, if_false, sync_same src _ ok'.stack]
  | .test (.atom a) :: K =>
    have hs : sstep I src ⟨[.test (.atom a) :: K], c⟩ = perform cfg src (.test (.atom a) :: K) K [] c (I.atom a) := rfl
    simp only [todo, truth] at hd
    have fromTest : ∀ (f : View W V → TestOut W V P) b mv w, I.atom a = .test f → f c.view = ⟨.bool b, mv, w, false⟩ →
        todo I K b { stateOf c acts ans with view := { c.view with matchv := mv, world := w } } = some (st, q) →
        ∃ c' acts', sstep I src ⟨[.test (.atom a) :: K], c⟩ = .cont c' ∧ Going I ans st c' acts' ∧ sent acts' = sent acts := by
      intro f b mv w h1 h2 h3
      refine goOn K { c with world := w, matchv := mv, testResult := b } ⟨ok.final, ok.queue, ok.main, ok.last, ok.stack⟩ wf ⟨q, h3⟩ ?_
      rw [hs, h1]
      simp only [perform, exec, h2, suspends, Bool.false_eq_true, if_false, sync_same src _ ok.stack, Bool.or_false]
    cases a with
    | tru => exact .inl <| fromTest _ true c.matchv c.world rfl rfl hd
    | fls => exact .inl <| fromTest _ false c.matchv c.world rfl rfl hd
    | leaf t =>
      rcases ho : I.test t c.view with ⟨res, mv, w, ch⟩
      have ho' : I.test t (stateOf c acts ans).view = ⟨res, mv, w, ch⟩ := ho
      cases res with
      | bool b =>
        cases ch with
        | false => exact .inl <| fromTest _ b mv w rfl ho (by simp only [atomTruth, ho'] at hd; exact hd)
        | true => simp [atomTruth, ho'] at hd
      | event p n =>
        cases ch with
        | false =>
          right; right; right
          simp only [atomTruth, ho'] at hd
          refine ⟨p, ⟨[K], { c with world := w, matchv := mv, testResult := n }⟩, ?_, K, rfl, ?_, wf, q, ?_⟩
          · rw [hs]
            simp only [Interp.atom, perform, exec, ho, suspends, Bool.false_eq_true, if_false, sync_same src _ ok.stack, Bool.or_false]
          · exact ⟨by rw [fin_append]; exact ok.final, ok.queue, by rw [current_append]; exact ok.main, by rw [made_append]; exact ok.last, ok.stack⟩
          · rw [Bool.xor_comm]
            exact hd
        | true => simp [atomTruth, ho'] at hd
      | error p => simp [atomTruth, ho'] at hd
    | ev e =>
      rcases ho : I.expr e c.view with ⟨x, w⟩ | ⟨p, w⟩
      · left
        have ho' : I.expr e (stateOf c acts ans).view = .done x w := ho
        refine goOn K { c with world := w, testResult := cfg.toBool x } ⟨ok.final, ok.queue, ok.main, ok.last, ok.stack⟩ wf
          ⟨q, by simp only [atomTruth, ho'] at hd; exact hd⟩ ?_
        rw [hs]
        simp only [Interp.atom, perform, exec, ho, suspends, Bool.false_eq_true, if_false, sync_same src _ ok.stack]
      · have ho' : I.expr e (stateOf c acts ans).view = .call p w := ho
        simp [atomTruth, ho'] at hd
    | bad b => simp [atomTruth] at hd
  | .test (.not e) :: K =>
    refine .inl (goOn (.test e :: .neg :: K) c ok wf ⟨q, ?_⟩ rfl)
    rw [← hd]
    simp only [todo, truth]
    rcases truth I e (stateOf c acts ans) with _ | ⟨r, v⟩ <;> rfl
  | .test (.any l) :: K => exact .inl (goOn (.tests false l :: K) c ok wf ⟨q, hd⟩ rfl)
  | .test (.all l) :: K => exact .inl (goOn (.tests true l :: K) c ok wf ⟨q, hd⟩ rfl)
  | .tests isAll (.one e) :: K => exact .inl (goOn (.test e :: K) c ok wf ⟨q, hd⟩ rfl)
  | .tests isAll (.cons e l) :: K =>
    refine .inl (goOn (.test e :: .more isAll l :: K) c ok wf ⟨q, ?_⟩ rfl)
    rw [← hd]
    simp only [todo, truths]
    rcases truth I e (stateOf c acts ans) with _ | ⟨r, v⟩
    · rfl
    · by_cases hr : r = isAll
      · simp only [if_pos hr]
      · simp only [if_neg hr]
  | .neg :: K =>
    exact .inl (goOn K { c with testResult := !c.testResult } ⟨ok.final, ok.queue, ok.main, ok.last, ok.stack⟩ wf ⟨q, hd⟩ rfl)
  | .more isAll l :: K =>
    simp only [todo] at hd
    by_cases hr : c.testResult = isAll
    · rw [if_pos hr] at hd
      refine .inl (goOn (.tests isAll l :: K) c ok wf ⟨q, hd⟩ ?_)
      show (if c.testResult = isAll then _ else _) = _
      rw [if_pos hr]
    · rw [if_neg hr] at hd
      refine .inl (goOn K c ok wf ⟨q, hd⟩ ?_)
      show (if c.testResult = isAll then _ else _) = _
      rw [if_neg hr]
  | .branch ch :: K =>
    refine .inl (goOn (choose ch c.testResult ++ K) c ok ?_ ⟨q, ?_⟩ rfl)
    · cases ch <;> cases c.testResult <;> first | exact wf.2 | exact ⟨rfl, wf.1, wf.2⟩ | exact ⟨wf.1, wf.2⟩
    · rw [← hd]
      cases ch with
      | one t b' cl =>
        cases ht : c.testResult
        · simp only [choose, todo, List.nil_append, Bool.false_eq_true, if_false]
        · simp only [choose, List.cons_append, List.nil_append, todo_append_clear]; simp only [todo, if_true]
      | els t b' cl e cl' =>
        cases ht : c.testResult
        · simp only [choose, List.cons_append, List.nil_append, todo_append_clear]; simp only [todo, Bool.false_eq_true, if_false]
        · simp only [choose, List.cons_append, List.nil_append, todo_append_clear]; simp only [todo, if_true]
      | elif t b' cl ch =>
        cases ht : c.testResult
        · have ind := fun t s => todo_indep I K wf.1 wf.2 t false s
          simp only [choose, List.cons_append, List.nil_append, todo, Bool.false_eq_true, if_false]
          cases ch with
          | one t b' cl =>
            rw [chain]
            simp only [Chain.test]
            rcases truth I t (stateOf c acts ans) with _ | ⟨r, v⟩
            · rfl
            · cases r
              · simp only [todo, Bool.false_eq_true, if_false]; exact ind _ _
              · simp only [todo, if_true, andThen_assoc]; exact congrArg _ (funext fun s => congrArg _ (funext fun s => ind _ s))
          | els t b' cl e cl' =>
            rw [chain]
            simp only [Chain.test]
            rcases truth I t (stateOf c acts ans) with _ | ⟨r, v⟩
            · rfl
            · cases r
              · simp only [todo, Bool.false_eq_true, if_false, andThen_assoc]
              · simp only [todo, if_true, andThen_assoc]; exact congrArg _ (funext fun s => congrArg _ (funext fun s => ind _ s))
          | elif t b' cl ch =>
            rw [chain]
            simp only [Chain.test]
            rcases truth I t (stateOf c acts ans) with _ | ⟨r, v⟩
            · rfl
            · cases r
              · simp only [todo, Bool.false_eq_true, if_false]
              · simp only [todo, if_true, andThen_assoc]; exact congrArg _ (funext fun s => congrArg _ (funext fun s => ind _ s))
        · simp only [choose, List.cons_append, List.nil_append, todo_append_clear]; simp only [todo, if_true]
  | .clear none :: K => exact .inl (goOn K c ok wf.2 ⟨q, hd⟩ rfl)
  | .clear (some a) :: K =>
    refine .inl (goOn (.ops [a] :: K) c ok wf ⟨q, ?_⟩ rfl)
    rw [← hd]
    simp only [todo, commands, clear]
    rcases command cfg (stateOf c acts ans) (I.act a) with _ | ⟨s', b⟩
    · rfl
    · cases b <;> rfl
  | .ev _ :: _ => exact wf.elim
  | .vac a :: K =>
    simp only [todo] at hd
    cases ht : c.testResult with
    | true =>
      rw [ht, if_pos rfl] at hd
      refine .inl (goOn (.ops [a] :: K) c ok ⟨wf.1, wf.2⟩ ⟨q, ?_⟩ ?_)
      · rw [← hd, ht]
        simp only [todo, commands]
        rcases command cfg (stateOf c acts ans) (I.act a) with _ | ⟨s', b⟩
        · rfl
        · cases b <;> rfl
      · show (if c.testResult then _ else _) = _
        rw [ht]; rfl
    | false =>
      rw [ht, if_neg (by simp)] at hd
      refine .inl (goOn K c ok wf.2 ⟨q, by rw [ht]; exact hd⟩ ?_)
      show (if c.testResult then _ else _) = _
      rw [ht]; rfl
  | .loop _ _ _ :: _ => exact wf.elim
  | .parts _ _ _ :: _ => exact wf.elim

/-! ## Actions are only added -/

theorem writeDown_mono (s : State W V P) (a : Action P) : s.acts <+: (andDoes (writeDown cfg s) a).acts := by
  simp only [andDoes, writeDown]
  split
  · exact (List.prefix_append _ _).trans (List.prefix_append _ _)
  · exact List.prefix_append _ _

theorem command_mono {s s' : State W V P} {i : Instr W V P} {b} (h : command cfg s i = some (s', b)) : s.acts <+: s'.acts := by
  cases i with
  | redirect l c a =>
    simp only [command] at h
    split at h
    · simp only [Option.some.injEq, Prod.mk.injEq] at h; rw [← h.1]; exact List.prefix_rfl
    · split at h
      · simp only [Option.some.injEq, Prod.mk.injEq] at h; rw [← h.1]; exact writeDown_mono _ _
      · simp only [Option.some.injEq, Prod.mk.injEq] at h; rw [← h.1]; exact List.prefix_rfl
  | assign t f => cases t <;> simp only [command, Option.some.injEq, Prod.mk.injEq, reduceCtorEq] at h <;> (rw [← h.1]; exact List.prefix_rfl)
  | editFlags t f => cases t <;> simp only [command, Option.some.injEq, Prod.mk.injEq, reduceCtorEq] at h <;> (rw [← h.1]; exact List.prefix_rfl)
  | require caps =>
    simp only [command] at h
    split at h
    · simp only [Option.some.injEq, Prod.mk.injEq] at h; rw [← h.1]; exact List.prefix_rfl
    · cases h
  | clear a b c =>
    simp only [command] at h
    split at h
    · simp only [Option.some.injEq, Prod.mk.injEq] at h; rw [← h.1]; exact List.prefix_rfl
    · cases h
  | keep f => simp only [command, Option.some.injEq, Prod.mk.injEq] at h; rw [← h.1]; exact writeDown_mono _ _
  | edit f => simp only [command, Option.some.injEq, Prod.mk.injEq] at h; rw [← h.1]; exact List.prefix_rfl
  | discard => simp only [command, Option.some.injEq, Prod.mk.injEq] at h; rw [← h.1]; exact List.prefix_append _ _
  | reject f => simp only [command, Option.some.injEq, Prod.mk.injEq] at h; rw [← h.1]; exact List.prefix_append _ _
  | vacation f fcc => simp only [command, Option.some.injEq, Prod.mk.injEq] at h; rw [← h.1]; exact List.prefix_append _ _
  | notify f fcc =>
    simp only [command] at h
    split at h
    · simp only [Option.some.injEq, Prod.mk.injEq] at h; rw [← h.1]; exact List.prefix_rfl
    · split at h
      · simp only [Option.some.injEq, Prod.mk.injEq] at h; rw [← h.1]; exact List.prefix_append _ _
      · split at h
        · split at h
          · simp only [Option.some.injEq, Prod.mk.injEq] at h; rw [← h.1]; exact List.prefix_rfl
          · simp only [Option.some.injEq, Prod.mk.injEq] at h; rw [← h.1]; exact List.prefix_append _ _
        · simp only [Option.some.injEq, Prod.mk.injEq] at h; rw [← h.1]; exact List.prefix_append _ _
  | fileInto c d f => simp only [command, Option.some.injEq, Prod.mk.injEq] at h; rw [← h.1]; exact writeDown_mono _ _
  | stop => simp only [command, Option.some.injEq, Prod.mk.injEq] at h; rw [← h.1]; exact List.prefix_rfl
  | _ => simp [command] at h

theorem andThen_mono {s s' : State W V P} {b r} {f : State W V P → Option (State W V P × Bool)} (h : andThen r f = some (s', b))
    (h1 : ∀ x b, r = some (x, b) → s.acts <+: x.acts) (h2 : ∀ x b s', f x = some (s', b) → x.acts <+: s'.acts) : s.acts <+: s'.acts := by
  rcases r with _ | ⟨x, q⟩
  · cases h
  · cases q with
    | true =>
      simp only [andThen, Option.some.injEq, Prod.mk.injEq] at h
      rw [← h.1]
      exact h1 x _ rfl
    | false => exact (h1 x _ rfl).trans (h2 x _ _ h)

theorem commands_mono {I : Interp cfg A T E} : ∀ (is : List A) (s : State W V P) (s') (b), commands I is s = some (s', b) → s.acts <+: s'.acts
  | [], s, s', b, h => by
    simp only [commands, Option.some.injEq, Prod.mk.injEq] at h
    rw [← h.1]; exact List.prefix_rfl
  | a :: is, s, s', b, h => by
    simp only [commands] at h
    rcases hc : command cfg s (I.act a) with _ | ⟨x, q⟩
    · rw [hc] at h; cases h
    · rw [hc] at h
      cases q with
      | true =>
        simp only [Option.some.injEq, Prod.mk.injEq] at h
        rw [← h.1]
        exact command_mono hc
      | false => exact (command_mono hc).trans (commands_mono is x s' b h)

theorem atomTruth_mono {I : Interp cfg A T E} {s s' : State W V P} {a : Atom A T E} {b} (h : atomTruth I s a = some (b, s')) :
    s.acts <+: s'.acts := by
  cases a with
  | tru => simp only [atomTruth, Option.some.injEq, Prod.mk.injEq] at h; rw [← h.2]; exact List.prefix_rfl
  | fls => simp only [atomTruth, Option.some.injEq, Prod.mk.injEq] at h; rw [← h.2]; exact List.prefix_rfl
  | leaf t =>
    simp only [atomTruth] at h
    split at h
    · simp only [Option.some.injEq, Prod.mk.injEq] at h; rw [← h.2]; exact List.prefix_rfl
    · simp only [Option.some.injEq, Prod.mk.injEq] at h; rw [← h.2]; exact List.prefix_append _ _
    · cases h
  | ev e =>
    simp only [atomTruth] at h
    split at h
    · simp only [Option.some.injEq, Prod.mk.injEq] at h; rw [← h.2]; exact List.prefix_rfl
    · cases h
  | bad b => cases h

mutual
theorem truth_mono {I : Interp cfg A T E} : ∀ (e : TestE A T E) (s : State W V P) (b s'), truth I e s = some (b, s') → s.acts <+: s'.acts
  | .atom a, s, b, s', h => atomTruth_mono h
  | .not e, s, b, s', h => by
    rw [truth] at h
    split at h
    · rename_i h1
      simp only [Option.some.injEq, Prod.mk.injEq] at h
      rw [← h.2]
      exact truth_mono e _ _ _ h1
    · cases h
  | .any l, s, b, s', h => truths_mono false l s b s' h
  | .all l, s, b, s', h => truths_mono true l s b s' h
theorem truths_mono {I : Interp cfg A T E} (isAll : Bool) : ∀ (l : Tests A T E) (s : State W V P) (b s'), truths I isAll l s = some (b, s') →
    s.acts <+: s'.acts
  | .one e, s, b, s', h => truth_mono e s b s' h
  | .cons e l, s, b, s', h => by
    rw [truths] at h
    split at h
    · rename_i h1
      split at h
      · exact (truth_mono e _ _ _ h1).trans (truths_mono isAll l _ _ _ h)
      · simp only [Option.some.injEq, Prod.mk.injEq] at h
        rw [← h.2]
        exact truth_mono e _ _ _ h1
    · cases h
end

theorem clear_mono {I : Interp cfg A T E} (cl : Option A) (s : State W V P) (b s') (h : clear I cl s = some (s', b)) : s.acts <+: s'.acts := by
  cases cl with
  | none => simp only [clear, Option.some.injEq, Prod.mk.injEq] at h; rw [← h.1]; exact List.prefix_rfl
  | some a => exact command_mono h

mutual
theorem stmt_mono {I : Interp cfg A T E} : ∀ (x : Stmt A T E) (s : State W V P) (s') (b), stmt I x s = some (s', b) → s.acts <+: s'.acts
  | .act is, s, s', b, h => commands_mono is s s' b h
  | .cond c, s, s', b, h => chain_mono c s s' b h
  | .ret, s, s', b, h => by simp only [stmt, Option.some.injEq, Prod.mk.injEq] at h; rw [← h.1]; exact List.prefix_rfl
  | .eval _, _, _, _, h => by simp [stmt] at h
  | .vac t a, s, s', b, h => by
    simp only [stmt] at h
    split at h
    · rename_i h1
      exact (atomTruth_mono h1).trans (command_mono h)
    · rename_i h1
      simp only [Option.some.injEq, Prod.mk.injEq] at h; rw [← h.1]; exact atomTruth_mono h1
    · cases h
  | .loop _ _ _, _, _, _, h => by simp [stmt] at h
  | .parts _ _ _, _, _, _, h => by simp [stmt] at h
  | .brk _, _, _, _, h => by simp [stmt] at h
  | .cont, _, _, _, h => by simp [stmt] at h
theorem block_mono {I : Interp cfg A T E} : ∀ (x : Blk A T E) (s : State W V P) (s') (b), block I x s = some (s', b) → s.acts <+: s'.acts
  | .nil, s, s', b, h => by simp only [block, Option.some.injEq, Prod.mk.injEq] at h; rw [← h.1]; exact List.prefix_rfl
  | .cons st bl, s, s', b, h => by
    rw [block] at h
    exact andThen_mono h (fun x b e => stmt_mono st s x b e) (fun x b s' e => block_mono bl x s' b e)
theorem chain_mono {I : Interp cfg A T E} : ∀ (x : Chain A T E) (s : State W V P) (s') (b), chain I x s = some (s', b) → s.acts <+: s'.acts
  | .one t bl cl, s, s', b, h => by
    rw [chain] at h
    split at h
    · rename_i h1
      exact (truth_mono t _ _ _ h1).trans (andThen_mono h (fun x b e => block_mono bl _ x b e) (fun x b s' e => clear_mono cl x b s' e))
    · rename_i h1
      simp only [Option.some.injEq, Prod.mk.injEq] at h; rw [← h.1]; exact truth_mono t _ _ _ h1
    · cases h
  | .els t bl cl e cl', s, s', b, h => by
    rw [chain] at h
    split at h
    · rename_i h1
      exact (truth_mono t _ _ _ h1).trans (andThen_mono h (fun x b e => block_mono bl _ x b e) (fun x b s' e => clear_mono cl x b s' e))
    · rename_i h1
      exact (truth_mono t _ _ _ h1).trans (andThen_mono h (fun x b e' => block_mono e _ x b e') (fun x b s' e => clear_mono cl' x b s' e))
    · cases h
  | .elif t bl cl c, s, s', b, h => by
    rw [chain] at h
    split at h
    · rename_i h1
      exact (truth_mono t _ _ _ h1).trans (andThen_mono h (fun x b e => block_mono bl _ x b e) (fun x b s' e => clear_mono cl x b s' e))
    · rename_i h1
      exact (truth_mono t _ _ _ h1).trans (chain_mono c _ s' b h)
    · cases h
end

theorem todo_mono {I : Interp cfg A T E} : ∀ (K : Todo A T E) (t : Bool) (s : State W V P) (s') (b), todo I K t s = some (s', b) → s.acts <+: s'.acts
  | [], t, s, s', b, h => by simp only [todo, Option.some.injEq, Prod.mk.injEq] at h; rw [← h.1]; exact List.prefix_rfl
  | .blk bl :: K, t, s, s', b, h => by
    rw [todo] at h
    exact andThen_mono h (fun x b e => block_mono bl s x b e) (fun x b s' e => todo_mono K t x s' b e)
  | .ops is :: K, t, s, s', b, h => by
    rw [todo] at h
    exact andThen_mono h (fun x b e => commands_mono is s x b e) (fun x b s' e => todo_mono K t x s' b e)
  | .test e :: K, t, s, s', b, h => by
    rw [todo] at h
    split at h
    · rename_i h1
      exact (truth_mono e _ _ _ h1).trans (todo_mono K _ _ s' b h)
    · cases h
  | .tests isAll l :: K, t, s, s', b, h => by
    rw [todo] at h
    split at h
    · rename_i h1
      exact (truths_mono isAll l _ _ _ h1).trans (todo_mono K _ _ s' b h)
    · cases h
  | .neg :: K, t, s, s', b, h => todo_mono K _ s s' b h
  | .more isAll l :: K, t, s, s', b, h => by
    rw [todo] at h
    split at h
    · split at h
      · rename_i h1
        exact (truths_mono isAll l _ _ _ h1).trans (todo_mono K _ _ s' b h)
      · cases h
    · exact todo_mono K _ s s' b h
  | .branch (.one _ bl cl) :: K, t, s, s', b, h => by
    rw [todo] at h
    split at h
    · exact andThen_mono h (fun x b e => andThen_mono e (fun x b e => block_mono bl s x b e) (fun x b s' e => clear_mono cl x b s' e))
        (fun x b s' e => todo_mono K t x s' b e)
    · exact todo_mono K _ s s' b h
  | .branch (.els _ bl cl e cl') :: K, t, s, s', b, h => by
    rw [todo] at h
    split at h
    · exact andThen_mono h (fun x b e => andThen_mono e (fun x b e => block_mono bl s x b e) (fun x b s' e => clear_mono cl x b s' e))
        (fun x b s' e => todo_mono K t x s' b e)
    · exact andThen_mono h (fun x b e' => andThen_mono e' (fun x b e' => block_mono e s x b e') (fun x b s' e => clear_mono cl' x b s' e))
        (fun x b s' e => todo_mono K t x s' b e)
  | .branch (.elif _ bl cl c) :: K, t, s, s', b, h => by
    rw [todo] at h
    split at h
    · exact andThen_mono h (fun x b e => andThen_mono e (fun x b e => block_mono bl s x b e) (fun x b s' e => clear_mono cl x b s' e))
        (fun x b s' e => todo_mono K t x s' b e)
    · exact andThen_mono h (fun x b e => chain_mono c s x b e) (fun x b s' e => todo_mono K t x s' b e)
  | .clear cl :: K, t, s, s', b, h => by
    rw [todo] at h
    exact andThen_mono h (fun x b e => clear_mono cl s b x e) (fun x b s' e => todo_mono K t x s' b e)
  | .ev _ :: _, _, _, _, _, h => by simp [todo] at h
  | .vac a :: K, t, s, s', b, h => by
    rw [todo] at h
    split at h
    · exact andThen_mono h (fun x b e => command_mono e) (fun x b s' e => todo_mono K t x s' b e)
    · exact todo_mono K _ s s' b h
  | .loop _ _ _ :: _, _, _, _, _, h => by simp [todo] at h
  | .parts _ _ _ :: _, _, _, _, _, h => by simp [todo] at h

theorem sent_mono {a b : List (Action P)} (h : a <+: b) : sent a <+: sent b := by
  obtain ⟨t, rfl⟩ := h
  rw [sent_append]
  exact List.prefix_append _ _

/-- There is something to tell the host at the end. -/
theorem last_exists (s : State W V P) (h : KeepsLast s.acts) (hu : UpToDate s) : ∃ l, Last cfg s l := by
  rcases fin_kept s.acts h with ⟨fl, m, e, hk⟩ | ⟨e | e, hn⟩
  · have key := fun l => keptAs_keptBy (cfg := cfg) (s := s) (l := l) hk hu
    have hd : ¬ Discarded s.acts := by
      intro h
      rw [← fin_discarded, e] at h
      cases h
    cases hc : s.edited with
    | false =>
      refine ⟨[.keep (keptFlags cfg s fl) m], ⟨fun l' h' => ?_, fun h => absurd h hd, fun hn => absurd ⟨fl, keptBy_kept.2 ⟨m, hk⟩⟩ hn⟩⟩
      have := key l' h'
      rw [hc, if_neg (by simp)] at this
      exact this.symm
    | true =>
      refine ⟨[.created (made s.acts + 1) (cfg.render s.view.world), .keep (keptFlags cfg s []) (made s.acts + 1)],
        ⟨fun l' h' => ?_, fun h => absurd h hd, fun hn => absurd ⟨fl, keptBy_kept.2 ⟨m, hk⟩⟩ hn⟩⟩
      have := key l' h'
      rw [hc, if_pos rfl] at this
      exact this.2.symm
  · exact ⟨[.discard], ⟨fun fl h' => absurd (keptAs_kept h') hn, fun _ => rfl, fun _ h => absurd ((fin_discarded _).1 e) h⟩⟩
  · refine ⟨[], ⟨fun fl h' => absurd (keptAs_kept h') hn, fun hd => ?_, fun _ _ => rfl⟩⟩
    rw [← fin_discarded, e] at hd
    cases hd

/-! ## Sessions -/

/-- The events the host is given. -/
def told (h : List (IO W V P)) : List (Event P) :=
  h.filterMap fun | .output (.event e) => some e | _ => none

theorem told_append (a b : List (IO W V P)) : told (a ++ b) = told a ++ told b := by simp [told]

/-- The host answers events by `true` or `false`. -/
def Answers (h : List (IO W V P)) : Prop := ∀ i, IO.input i ∈ h → i = .true ∨ i = .false

/-- The number of questions the host was asked. -/
def questions (h : List (IO W V P)) : Nat := (told h).countP fun | .query _ => true | _ => false

/-- The host answers the first, second, … question by `ans 0`, `ans 1`, …. -/
def Answered (ans : Nat → Bool) (h : List (IO W V P)) : Prop :=
  ∀ h0 p i h1, h = h0 ++ .output (.event (.query p)) :: .input i :: h1 → i = if ans (questions h0) then .true else .false

theorem questions_asked {h : List (IO W V P)} {acts : List (Action P)} (e : told h = sent acts) : questions h = asked acts := by
  rw [questions, e, sent]
  clear e
  generalize 0 = m
  induction acts generalizing m with
  | nil => rfl
  | cons a l ih =>
    cases a with
    | notify e k => rcases k with _ | ⟨_, _, _, _⟩ <;> simp [sentFrom, asked, ih]
    | mail k i m r c =>
      have : (c.toList.map fun k => (Event.fileInto k.1 k.2 i : Event P)).countP (fun | .query _ => true | _ => false) = 0 := by
        cases c <;> rfl
      simp [sentFrom, asked, ih, this]
    | _ => simp [sentFrom, asked, ih]

theorem Answered.init {ans : Nat → Bool} {h h' : List (IO W V P)} (H : Answered ans (h ++ h')) : Answered ans h := by
  intro h0 p i h1 e
  exact H h0 p i (h1 ++ h') (by rw [e]; simp)

theorem question_unique {p p' : P} : ∀ (h0 h0' t t' : List (IO W V P)), h0 ++ .output (.event (.query p)) :: t = h0' ++ .output (.event (.query p')) :: t' →
    questions h0 = questions h0' → t = t'
  | [], [], t, t', e, _ => by simp only [List.nil_append, List.cons.injEq] at e; exact e.2
  | [], x :: h0', t, t', e, hq => by
    simp only [List.nil_append, List.cons_append, List.cons.injEq] at e
    rw [← e.1] at hq
    simp [questions, told] at hq
  | x :: h0, [], t, t', e, hq => by
    simp only [List.nil_append, List.cons_append, List.cons.injEq] at e
    rw [e.1] at hq
    simp [questions, told] at hq
  | x :: h0, x' :: h0', t, t', e, hq => by
    simp only [List.cons_append, List.cons.injEq] at e
    obtain ⟨rfl, e⟩ := e
    refine question_unique h0 h0' t t' e ?_
    have key : ∀ l : List (IO W V P), questions (x :: l) = questions [x] + questions l := by
      intro l
      rw [questions, questions, questions, ← List.countP_append, ← told_append]
      rfl
    rw [key h0, key h0'] at hq
    omega

/-- Every host answers in some way. -/
theorem answered_exists {h : List (IO W V P)} (hA : Answers h) : ∃ ans, Answered ans h := by
  classical
  refine ⟨fun k => decide (∃ h0 p h1, h = h0 ++ .output (.event (.query p)) :: .input .true :: h1 ∧ questions h0 = k), ?_⟩
  intro h0 p i h1 e
  by_cases hx : ∃ h0' p h1, h = h0' ++ .output (.event (.query p)) :: .input .true :: h1 ∧ questions h0' = questions h0
  · simp only [hx, decide_true, if_true]
    obtain ⟨h0', p', h1', e', hq⟩ := hx
    have := question_unique h0' h0 _ _ (e'.symm.trans e) hq
    simp only [List.cons.injEq, IO.input.injEq] at this
    exact this.1.symm
  · simp only [hx, decide_false, Bool.false_eq_true, if_false]
    rcases hA i (by rw [e]; simp) with rfl | rfl
    · exact absurd ⟨h0, p, h1, e, rfl⟩ hx
    · rfl

/-- How far the script has come. -/
def At (I : Interp cfg A T E) (ans : Nat → Bool) (st : State W V P) (r : List (IO W V P)) : SMode W V P A T E → Prop
  | .running c => .output .none ∉ r ∧ ∃ acts, Going I ans st c acts ∧ told r = sent acts
  | .waiting c => (.output .none ∉ r ∧ ∃ acts, Paused I ans st c acts ∧ told r ++ c.ctx.queue = sent acts) ∨
      (.output .none ∉ r ∧ ∃ r0 acts p, r = r0 ++ [.output (.event (.query p))] ∧ Asking I ans st c acts p ∧ told r0 = sent acts) ∨
      (Ended c ∧ (.output .none ∈ r → c.ctx.queue = []) ∧ ∃ l, Last cfg st l ∧ told r ++ c.ctx.queue = sent st.acts ++ l)

theorem follows (hE : ∀ v, cfg.isEmpty v = true → v = cfg.empty) {I : Interp cfg A T E} {src : Script W V P → Blk A T E} {w : W}
    {h m} (hh : SHist I src w h m) {n : Name} {s : Script W V P} {ans : Nat → Bool} {st : State W V P} (ha : Accepted s)
    (ho : outcome I (src s) w s.numVars s.numMatchVars ans = some st) (hk : KeepsLast st.acts) (hu : UpToDate st) :
    ∀ {r}, (h = [] ∨ h = .input (.script n s) :: r) → Answers r → Answered ans r → IO.output (.error .cpuLimit) ∉ r →
      (h = [] ∧ m = .waiting ⟨[], Ctx.new w⟩) ∨
      (h = .input (.script n s) :: r ∧ (∀ o, IO.output o ∈ r → o = .none ∨ ∃ e, o = .event e) ∧ At I ans st r m) := by
  have answer : ∀ (c : Conf W V P A T E) i, (i = .true ∨ i = .false) → Ended c →
      ∃ o c', enter (feed cfg src c i).ctx = .ret o c' ∧ Ended (⟨(feed cfg src c i).todo, c'⟩ : Conf W V P A T E) ∧
        (o = .none ∧ c.ctx.queue = [] ∧ c'.queue = [] ∨ ∃ e, o = .event e ∧ c.ctx.queue = e :: c'.queue) := by
    rintro ⟨ks, c⟩ i hi ⟨h1, h2⟩
    have e : (applyInput cfg c i).stack = [] ∧ (applyInput cfg c i).queue = c.queue ∧ (applyInput cfg c i).final = none := by
      rcases hi with rfl | rfl <;> exact ⟨h2.stack, rfl, h2.final⟩
    cases hq : c.queue with
    | nil =>
      refine ⟨.none, applyInput cfg c i, ?_, ⟨?_, ⟨e.1, e.2.2⟩⟩, .inl ⟨rfl, rfl, e.2.1.trans hq⟩⟩
      · simp [feed, enter, e.1, e.2.1, hq]
      · simp [feed, sync, e.1]
    | cons x xs =>
      refine ⟨.event x, { applyInput cfg c i with queue := xs }, ?_, ⟨?_, ⟨e.1, e.2.2⟩⟩, .inr ⟨x, rfl, rfl⟩⟩
      · simp [feed, enter, e.2.1, hq]
      · simp [feed, sync, e.1]
  have resume : ∀ (c : Conf W V P A T E) i acts, (i = .true ∨ i = .false) → Paused I ans st c acts →
      (c.ctx.queue = [] ∧ ∃ c', enter (feed cfg src c i).ctx = .cont c' ∧ Going I ans st ⟨(feed cfg src c i).todo, c'⟩ acts) ∨
      ∃ e q c', c.ctx.queue = e :: q ∧ enter (feed cfg src c i).ctx = .ret (.event e) c' ∧ c'.queue = q ∧
        Paused I ans st ⟨(feed cfg src c i).todo, c'⟩ acts := by
    rintro ⟨ks, c⟩ i acts hi ⟨K, rfl, ok, wf, hs, q, hd⟩
    have hd : todo I K c.testResult (stateOf c acts ans) = some (st, q) := hd
    obtain ⟨fr, hfr⟩ : ∃ fr, c.stack = [fr] := ok.stack
    have e : (applyInput cfg c i).stack = [fr] ∧ (applyInput cfg c i).queue = c.queue ∧ (∀ q, Ok { applyInput cfg c i with queue := q } acts ↔ q = []) ∧
        stateOf (applyInput cfg c i) acts ans = stateOf c acts ans := by
      rcases hi with rfl | rfl <;> exact ⟨hfr, rfl, fun q => ⟨fun h => h.queue, fun h => ⟨ok.final, h, ok.main, ok.last, ok.stack⟩⟩, rfl⟩
    have hd' : todo I K (applyInput cfg c i).testResult (stateOf (applyInput cfg c i) acts ans) = some (st, q) := by
      rw [e.2.2.2, ← hd]
      exact todo_indep I K hs wf _ _ _
    cases hq : c.queue with
    | nil =>
      left
      refine ⟨rfl, applyInput cfg c i, ?_, K, ?_, ?_, wf, q, hd'⟩
      · simp [feed, enter, e.1, e.2.1, hq]
      · simp [feed, sync, e.1]
      · exact (e.2.2.1 (applyInput cfg c i).queue).2 (e.2.1.trans hq)
    | cons x xs =>
      right
      refine ⟨x, xs, { applyInput cfg c i with queue := xs }, rfl, ?_, rfl, K, ?_, (e.2.2.1 []).2 rfl, wf, hs, q, hd'⟩
      · simp [feed, enter, e.2.1, hq]
      · simp [feed, sync, e.1]
  have replied : ∀ (c : Conf W V P A T E) i acts p, (i = if ans (asked acts) then .true else .false) → Asking I ans st c acts p →
      ∃ c', enter (feed cfg src c i).ctx = .cont c' ∧ Going I ans st ⟨(feed cfg src c i).todo, c'⟩ (acts ++ [.ask p]) := by
    rintro ⟨ks, c⟩ i acts p hi ⟨K, rfl, ok, wf, q, hd⟩
    have hd : todo I K (c.testResult ^^ ans (asked acts)) (stateOf c (acts ++ [.ask p]) ans) = some (st, q) := hd
    obtain ⟨fr, hfr⟩ : ∃ fr, c.stack = [fr] := ok.stack
    have e : applyInput cfg c i = { c with testResult := c.testResult ^^ ans (asked acts) } := by
      rw [hi]
      cases ans (asked acts) <;> rfl
    refine ⟨applyInput cfg c i, ?_, K, ?_, ?_, wf, q, ?_⟩
    · have hq : c.queue = [] := ok.queue
      simp [feed, enter, e, hfr, hq]
    · simp [feed, sync, e, hfr]
    · rw [e]; exact ⟨ok.final, ok.queue, ok.main, ok.last, ok.stack⟩
    · rw [e]; exact hd
  have first : ∃ c', enter (feed cfg src ⟨[], Ctx.new w⟩ (.script n s)).ctx = .cont c' ∧
      Going I ans st ⟨(feed cfg src (⟨[], Ctx.new w⟩ : Conf W V P A T E) (.script n s)).todo, c'⟩ [] := by
    have e : applyInput cfg (Ctx.new w) (.script n s) =
        { pushScript cfg { (Ctx.new w : Ctx W V P) with cache := [(n, s)] } s with testResult := Bool.false } := by
      exact if_pos ha
    have ht : (feed cfg src (⟨[], Ctx.new w⟩ : Conf W V P A T E) (.script n s)).todo = [[.blk (src s)]] := by
      simp only [feed, e]; rfl
    rcases ho' : block I (src s) (initial cfg w s.numVars s.numMatchVars ans) with _ | ⟨st', q⟩
    · rw [outcome, ho'] at ho; cases ho
    · rw [outcome, ho'] at ho
      simp only [Option.map_some, Option.some.injEq] at ho
      subst ho
      refine ⟨applyInput cfg (Ctx.new w) (.script n s), ?_, [.blk (src s)], ht, ?_, ⟨rfl, trivial⟩, q, ?_⟩
      · simp only [feed, enter, e]; rfl
      · rw [e]; exact ⟨rfl, rfl, rfl, rfl, ⟨_, rfl⟩⟩
      · rw [e]
        show andThen (block I (src s) (initial cfg w s.numVars s.numMatchVars ans)) _ = _
        rw [ho']
        cases q <;> rfl
  induction hh with
  | start => exact fun _ _ _ _ => .inl ⟨rfl, rfl⟩
  | @feedRet h c i o c1 hh he ih =>
    intro r hr hA hQ hC
    right
    rcases hr with hr | hr
    · simp at hr
    cases h with
    | nil =>
      simp only [List.nil_append, List.cons.injEq, IO.input.injEq] at hr
      obtain ⟨rfl, -⟩ := hr
      rcases ih (r := []) (.inl rfl) (by simp [Answers]) (by simp [Answered]) (by simp) with ⟨-, e⟩ | ⟨e, -⟩
      · injection e with e
        subst e
        obtain ⟨c', h1, -⟩ := first
        rw [h1] at he; cases he
      · cases e
    | cons x h =>
      simp only [List.cons_append, List.cons.injEq] at hr
      obtain ⟨rfl, rfl⟩ := hr
      have hi := hA i (by simp)
      rcases ih (r := h) (.inr rfl) (fun j hj => hA j (List.mem_append_left _ hj)) hQ.init (fun hj => hC (List.mem_append_left _ hj)) with
        ⟨e, -⟩ | ⟨-, hout, hat⟩
      · cases e
      · rcases hat with ⟨hn, acts, hp, ht⟩ | ⟨-, r0, acts, p, rfl, hp, ht⟩ | ⟨hend, hnone, l, h1, h2⟩
        · rcases resume c i acts hi hp with ⟨-, c', h1, -⟩ | ⟨e, q, c', h0, h1, h2, h3⟩
          · rw [h1] at he; cases he
          · rw [h1] at he
            injection he with he1 he2
            subst he1 he2
            refine ⟨rfl, ?_, .inl ⟨by simpa using hn, acts, h3, ?_⟩⟩
            · intro o ho
              simp only [List.mem_append, List.mem_cons, List.not_mem_nil, or_false, IO.output.injEq, reduceCtorEq, false_or] at ho
              rcases ho with ho | rfl
              · exact hout o ho
              · exact .inr ⟨e, rfl⟩
            · rw [← ht, h0, told_append]
              show told h ++ [e] ++ c'.queue = _
              rw [h2]
              simp
        · obtain ⟨c', h1, -⟩ := replied c i acts p (questions_asked ht ▸ hQ r0 p i [.output o] (by simp)) hp
          rw [h1] at he; cases he
        · obtain ⟨o', c', h3, h4, h5⟩ := answer c i hi hend
          rw [h3] at he
          injection he with he1 he2
          subst he1 he2
          rcases h5 with ⟨rfl, hq, hq'⟩ | ⟨e, rfl, hq⟩
          · refine ⟨rfl, ?_, .inr (.inr ⟨h4, fun _ => hq', l, h1, ?_⟩)⟩
            · intro o ho
              simp only [List.mem_append, List.mem_cons, List.not_mem_nil, or_false, IO.output.injEq, reduceCtorEq, false_or] at ho
              rcases ho with ho | rfl
              · exact hout o ho
              · exact .inl rfl
            · rw [hq, List.append_nil] at h2
              show _ ++ c'.queue = _
              rw [told_append, h2, hq']; simp [told]
          · refine ⟨rfl, ?_, .inr (.inr ⟨h4, fun hm => ?_, l, h1, ?_⟩)⟩
            · intro o ho
              simp only [List.mem_append, List.mem_cons, List.not_mem_nil, or_false, IO.output.injEq, reduceCtorEq, false_or] at ho
              rcases ho with ho | rfl
              · exact hout o ho
              · exact .inr ⟨e, rfl⟩
            · simp only [List.mem_append, List.mem_cons, List.not_mem_nil, or_false, IO.output.injEq, reduceCtorEq] at hm
              have := hnone hm
              rw [hq] at this
              cases this
            · rw [← h2, hq, told_append]
              show told h ++ [e] ++ c'.queue = _
              simp
  | @feedGo h c i c1 hh he ih =>
    intro r hr hA hQ hC
    right
    rcases hr with hr | hr
    · simp at hr
    cases h with
    | nil =>
      simp only [List.nil_append, List.cons.injEq, IO.input.injEq] at hr
      obtain ⟨rfl, rfl⟩ := hr
      rcases ih (r := []) (.inl rfl) (by simp [Answers]) (by simp [Answered]) (by simp) with ⟨-, e⟩ | ⟨e, -⟩
      · injection e with e
        subst e
        obtain ⟨c', h1, h2⟩ := first
        rw [h1] at he
        injection he with he
        subst he
        exact ⟨rfl, by simp, by simp, [], h2, rfl⟩
      · cases e
    | cons x h =>
      simp only [List.cons_append, List.cons.injEq] at hr
      obtain ⟨rfl, rfl⟩ := hr
      have hi := hA i (by simp)
      rcases ih (r := h) (.inr rfl) (fun j hj => hA j (List.mem_append_left _ hj)) hQ.init (fun hj => hC (List.mem_append_left _ hj)) with
        ⟨e, -⟩ | ⟨-, hout, hat⟩
      · cases e
      · rcases hat with ⟨hn, acts, hp, ht⟩ | ⟨hn, r0, acts, p, rfl, hp, ht⟩ | ⟨hend, -⟩
        · rcases resume c i acts hi hp with ⟨h0, c', h1, h2⟩ | ⟨e, q, c', -, h1, -⟩
          · rw [h1] at he
            injection he with he
            subst he
            rw [h0, List.append_nil] at ht
            exact ⟨rfl, by simpa using hout, by simpa using hn, acts, h2, by rw [told_append, ht]; simp [told]⟩
          · rw [h1] at he; cases he
        · obtain ⟨c', h1, h2⟩ := replied c i acts p (questions_asked ht ▸ hQ r0 p i [] (by simp)) hp
          rw [h1] at he
          injection he with he
          subst he
          refine ⟨rfl, by simpa using hout, by simpa using hn, acts ++ [.ask p], h2, ?_⟩
          rw [told_append, told_append, ht, sent_append]
          simp [told, sentFrom]
        · obtain ⟨o, c', h1, -⟩ := answer c i hi hend
          rw [h1] at he; cases he
  | @step h c c' hh hs ih =>
    intro r hr hA hQ hC
    rcases ih hr hA hQ hC with ⟨-, e⟩ | ⟨e, hout, hn, acts, hg, ht⟩
    · cases e
    · right
      refine ⟨e, hout, hn, ?_⟩
      rcases base_step hE (src := src) hk hu hg with ⟨c1, acts', h1, h2, h3⟩ | ⟨e, c1, acts', h1, -⟩ | ⟨o, c1, l, h1, -⟩ | ⟨p, c1, h1, -⟩
      · rw [hs] at h1
        injection h1 with h1
        subst h1
        exact ⟨acts', h2, by rw [ht, h3]⟩
      · rw [hs] at h1; cases h1
      · rw [hs] at h1; cases h1
      · rw [hs] at h1; cases h1
  | @ret h c o c' hh hs ih =>
    intro r hr hA hQ hC
    right
    rcases hr with hr | hr
    · simp at hr
    cases h with
    | nil => simp at hr
    | cons x h =>
      simp only [List.cons_append, List.cons.injEq] at hr
      obtain ⟨rfl, rfl⟩ := hr
      rcases ih (r := h) (.inr rfl) (fun j hj => hA j (List.mem_append_left _ hj)) hQ.init (fun hj => hC (List.mem_append_left _ hj)) with
        ⟨e, -⟩ | ⟨-, hout, hn, acts, hg, ht⟩
      · cases e
      · refine ⟨rfl, ?_⟩
        rcases base_step hE (src := src) hk hu hg with ⟨c1, acts', h1, -⟩ | ⟨e, c1, acts', h1, h2, h3⟩ | ⟨o1, c1, l, h1, h2, h3, h4, h5⟩ |
          ⟨p, c1, h1, h2⟩
        · rw [hs] at h1; cases h1
        · rw [hs] at h1
          injection h1 with h1 h1'
          subst h1 h1'
          refine ⟨?_, .inl ⟨by simpa using hn, acts', h2, by rw [told_append, ht, h3]; simp [told]⟩⟩
          intro o ho
          simp only [List.mem_append, List.mem_cons, List.not_mem_nil, or_false, IO.output.injEq] at ho
          rcases ho with ho | rfl
          · exact hout o ho
          · exact .inr ⟨e, rfl⟩
        · rw [hs] at h1
          injection h1 with h1 h1'
          subst h1 h1'
          refine ⟨?_, .inr (.inr ⟨h2, ?_, l, h3, ?_⟩)⟩
          · intro o' ho
            simp only [List.mem_append, List.mem_cons, List.not_mem_nil, or_false, IO.output.injEq] at ho
            rcases ho with ho | rfl
            · exact hout o' ho
            · rcases h5 with ⟨-, rfl, -⟩ | ⟨e, -, rfl⟩
              · exact .inl rfl
              · exact .inr ⟨e, rfl⟩
          · rcases h5 with ⟨-, -, hq⟩ | ⟨e, -, rfl⟩
            · exact fun _ => hq
            · intro hm
              simp only [List.mem_append, List.mem_cons, List.not_mem_nil, or_false, IO.output.injEq, reduceCtorEq] at hm
              exact absurd hm hn
          · rw [told_append, ht, ← h4]
            rcases h5 with ⟨rfl, rfl, hq⟩ | ⟨e, h6, rfl⟩
            · rw [hq]; simp [told]
            · rw [h6]; simp [told]
        · rw [hs] at h1
          injection h1 with h1 h1'
          subst h1 h1'
          refine ⟨?_, .inr (.inl ⟨by simpa using hn, h, acts, p, rfl, h2, ht⟩)⟩
          intro o ho
          simp only [List.mem_append, List.mem_cons, List.not_mem_nil, or_false, IO.output.injEq] at ho
          rcases ho with ho | rfl
          · exact hout o ho
          · exact .inr ⟨_, rfl⟩
  | @cut h c hh ih =>
    intro r hr hA hQ hC
    rcases hr with hr | hr
    · simp at hr
    · cases h with
      | nil => simp at hr
      | cons x h =>
        simp only [List.cons_append, List.cons.injEq] at hr
        exact absurd (by rw [← hr.2]; simp) hC

end Sieve.Base
