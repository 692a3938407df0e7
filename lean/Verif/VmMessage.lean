import Verif.VmLimits

/-!
# Message ids (C14) and the contents behind them (C46)
-/

namespace Sieve.Vm

variable {W V P : Type}

/-! ## C14: ids -/

/-- **C14 (1).** Whatever the scripts and the host do: every event that refers to a message refers to
the original one or to one announced before; announced ids are positive and strictly increasing. -/
theorem ids_announced {cfg : Cfg W V P} {w : W} {h m} (hh : Hist cfg (Ctx.new w) h m) :
    Announced (events h) := by
  have := invariant (G := False) hh (fun h => h.elim)
  cases m with
  | running c => exact this.1.ann
  | waiting c => exact announced_prefix (Inv.ann this)

/-- Announced ids are never used twice. -/
theorem announced_nodup {l : List (Event P)} (h : Announced l) : (ids l).Nodup := by
  induction l using List.reverseRecOn with
  | nil => simp [ids]
  | append_singleton l e ih =>
    rw [ids_append]
    have h1 := ih (announced_prefix h)
    have h2 := (h l e [] (by simp)).2
    cases hc : createdId e with
    | none => simpa [ids, hc] using h1
    | some i =>
      have := h2 i hc
      have he : ids [e] = [i] := by simp [ids, hc]
      rw [he, List.nodup_append]
      refine ⟨h1, by simp, ?_⟩
      intro a ha b hb
      simp only [List.mem_singleton] at hb
      subst hb
      have := this.2 a ha
      omega

/-- A pass that edits the message. -/
def Edits (cfg : Cfg W V P) (c : Ctx W V P) : Prop :=
  c.numInstr < cfg.cpuLimit ∧
    ((∃ f, fetch c = some (.edit f) ∧ (f c.view).2 = true)
     ∨ (∃ f, fetch c = some (.test f) ∧ (f c.view).changed = true ∧ ∀ p, (f c.view).res ≠ .error p))

/-- A pass that hands the message over (to a folder, a recipient, or for the final decision), or ends
the run. -/
def Delivers (cfg : Cfg W V P) (c : Ctx W V P) : Prop :=
  (∃ fl, actOf cfg c = some (.keep fl)) ∨ (∃ b, actOf cfg c = some (.fileInto b))
    ∨ (∃ b, actOf cfg c = some (.redirect b)) ∨ ∃ o c', step cfg c = .ret o c' ∧ c'.stack = []

/-- The state after a pass. -/
def Step.ctx : Step W V P → Ctx W V P
  | .cont c => c
  | .ret _ c => c

/-- What a pass emits: what it returns and what it leaves in the queue. -/
def emitted : Step W V P → List (Event P)
  | .cont c => c.queue
  | .ret o c => evs o ++ c.queue

theorem drain_ctx_changes (c : Ctx W V P) : (drain c).ctx.hasChanges = c.hasChanges := by
  unfold drain; split <;> rfl

theorem setTarget_changes (c : Ctx W V P) (t v) : (setTarget c t v).hasChanges = c.hasChanges := by
  cases t <;> rfl

theorem popParts_changes : ∀ (n : Nat) (c : Ctx W V P), (popParts n c).hasChanges = c.hasChanges
  | 0, c => rfl
  | n + 1, c => by
    unfold popParts
    split
    · rfl
    · exact popParts_changes n { c with part := ‹Nat›, partIter := ‹List Nat›, partStack := ‹_› }

theorem notify_changes (cfg : Cfg W V P) (c : Ctx W V P) (f fcc) :
    (execNotify cfg c f fcc).hasChanges = c.hasChanges := by
  unfold execNotify
  split
  · rfl
  · split
    · rfl
    · rfl
    · split <;> rfl

/-- Changes stay pending until the message is handed over. -/
theorem exec_changes {cfg : Cfg W V P} {c : Ctx W V P} {i : Instr W V P} (hc : c.hasChanges = true)
    (h1 : ∀ fl, i ≠ .keep fl) (h2 : ∀ a b f, i ≠ .fileInto a b f)
    (h3 : ∀ l cp addr, i = .redirect l cp addr → ¬ Redirects cfg c l addr) :
    (exec cfg c i).ctx.stack = [] ∨ (exec cfg c i).ctx.hasChanges = true := by
  have floop : ∀ (d : Ctx W V P) o, (Step.ret o (finishLoop cfg d)).ctx.stack = [] :=
    fun d o => (finishLoop_spec cfg d).1
  have fin : ∀ d : Ctx W V P, d.stack = [] → (finish cfg d).ctx.stack = [] := by
    intro d hd
    cases h : finish cfg d with
    | cont c' => exact absurd h (finish_not_cont _ _ _)
    | ret o c' => simp only [Step.ctx]; rw [(finish_ret h).1.1, hd]
  cases i with
  | jz t => right; simp only [exec]; split <;> exact hc
  | jnz t => right; simp only [exec]; split <;> exact hc
  | jmp t => right; exact hc
  | test f =>
    simp only [exec]
    split
    · right; simp [Step.ctx, hc]
    · right; simp [Step.ctx, hc]
    · left; exact floop _ _
  | eval f => right; simp only [exec]; split <;> exact hc
  | clear a b m => right; exact hc
  | keep fl => exact absurd rfl (h1 fl)
  | fileInto a b f => exact absurd rfl (h2 a b f)
  | redirect l cp addr =>
    right
    simp only [exec, drain_ctx_changes]
    have hn := h3 l cp addr rfl
    unfold execRedirect
    split
    · exact hc
    · rename_i a ha
      split
      · rename_i h1
        by_cases h2 : (!l && cfg.own c.world a) = true
        · rw [if_pos h2]; exact hc
        · exfalso
          refine hn ⟨a, ha, h1.1, h1.2.1, h1.2.2, ?_⟩
          cases l with
          | true => exact Or.inl rfl
          | false => exact Or.inr (by simpa using h2)
      · exact hc
  | discard => right; exact hc
  | stop => left; exact fin _ rfl
  | reject f => right; exact hc
  | forEveryPart t =>
    right
    simp only [exec]
    split
    · exact hc
    · split <;> exact hc
  | forEveryPartPush => right; exact hc
  | forEveryPartPop n => right; exact (popParts_changes n c).trans hc
  | «while» f t =>
    right
    simp only [exec]
    split
    · split <;> exact hc
    · exact hc
  | let_ t f =>
    right
    simp only [exec]
    split
    · exact (setTarget_changes ..).trans hc
    · exact hc
  | edit f => right; simp [exec, Step.ctx, hc]
  | assign t f => right; simp only [exec, drain_ctx_changes, setTarget_changes, hc]
  | editFlags t f => right; exact (setTarget_changes ..).trans hc
  | notify f g => right; simp only [exec, drain_ctx_changes, notify_changes, hc]
  | vacation f g =>
    right
    show (drain (execVacation c f g)).ctx.hasChanges = true
    rw [drain_ctx_changes]
    exact hc
  | «include» a b f =>
    simp only [exec]
    split
    · right; exact hc
    · right; exact hc
    · left; exact floop _ _
    · right; exact hc
  | return_ =>
    simp only [exec]
    unfold leave
    split
    · rename_i hs
      left; exact fin _ hs
    · rename_i fr rest hs
      simp only
      split
      · rename_i hr
        left; exact fin _ (by simpa using hr)
      · right; exact hc
  | require caps =>
    simp only [exec]
    split
    · right; exact hc
    · left; exact floop _ _
  | error f => left; exact floop _ _
  | invalid p => left; exact floop _ _

theorem redirects_acts {cfg : Cfg W V P} {c : Ctx W V P} {l cp addr}
    (hf : fetch c = some (.redirect l cp addr)) (hl : c.numInstr < cfg.cpuLimit)
    (h : Redirects cfg c l addr) : actOf cfg c = some (.redirect cp) := by
  obtain ⟨a, ha, h1, h2, h3, h4⟩ := h
  unfold actOf
  rw [if_pos hl, hf]
  simp only [ha]
  rw [if_pos ⟨h1, h2, h3, h4⟩]

theorem step_changes {cfg : Cfg W V P} {c : Ctx W V P} (hc : c.hasChanges = true)
    (hd : ¬ Delivers cfg c) : (step cfg c).ctx.hasChanges = true := by
  cases hs : c.stack with
  | nil => simpa [step, hs, Step.ctx] using hc
  | cons fr rest =>
    have stackE : ∀ o c', step cfg c = .ret o c' → c'.stack ≠ [] := fun o c' h1 h2 =>
      hd (Or.inr (Or.inr (Or.inr ⟨o, c', h1, h2⟩)))
    rcases step_cases (cfg := cfg) hs with ⟨_, i, hi, hfe, ⟨hl', e⟩ | ⟨hl', e⟩⟩ | ⟨_, _, e⟩ | ⟨_, _, e⟩
    · exact absurd (finishLoop_spec ..).1 (stackE _ _ e)
    · have key := exec_changes (cfg := cfg) (c := { c with numInstr := c.numInstr + 1, pos := c.pos + 1 })
        (i := i) hc ?_ ?_ ?_
      · rw [← e] at key
        rcases key with key | key
        · cases hst : step cfg c with
          | ret o c' => rw [hst] at key; exact absurd key (stackE _ _ hst)
          | cont c' =>
            -- a pass that goes on has a script
            exfalso
            rw [hst] at key
            simp only [Step.ctx] at key
            rw [e] at hst
            rcases exec_cont hst with ⟨h1, _⟩ | ⟨s, rfl⟩ | ⟨fr', rest', h1, hne, rfl⟩
            · rw [h1] at key; simp only at key; rw [hs] at key; simp at key
            · simp [pushScript] at key
            · exact hne key
        · exact key
      · rintro fl rfl
        exact hd (Or.inl ⟨fl c.view, by unfold actOf; rw [if_pos hl', hfe]⟩)
      · rintro a b f rfl
        exact hd (Or.inr (Or.inl ⟨a, by unfold actOf; rw [if_pos hl', hfe]⟩))
      · rintro l cp addr rfl hr
        exact hd (Or.inr (Or.inr (Or.inl ⟨cp, redirects_acts hfe hl' hr⟩)))
    · rw [e]
      unfold leave
      rw [hs]
      simp only
      split
      · rename_i hr
        exfalso
        have he : step cfg c = finish cfg { c with stack := rest, pos := fr.prevPos, locals := fr.prevLocals, matchv := fr.prevMatch } := by
          rw [e]; unfold leave; rw [hs]; simp only; rw [if_pos hr]
        cases hfin : finish cfg { c with stack := rest, pos := fr.prevPos, locals := fr.prevLocals, matchv := fr.prevMatch } with
        | cont c' => exact absurd hfin (finish_not_cont _ _ _)
        | ret o c' =>
          rw [hfin] at he
          refine stackE _ _ he ?_
          rw [(finish_ret hfin).1.1]
          simpa using hr
      · exact hc
    · rw [e]; exact hc

/-- After an edit, the changes are pending until the message is handed over. -/
theorem edit_pending {cfg : Cfg W V P} {w : W} {k m} (hh : Hist cfg (Ctx.new w) k m) :
    ∀ h1 c1 h2, k = h1 ++ .pass c1 :: h2 → Edits cfg c1 →
      (∀ c2 ∈ passes h2, ¬ Delivers cfg c2) → (modeCtx m).hasChanges = true := by
  have key : ∀ (h l h1 : List (Label W V P)) (c1 : Ctx W V P) (h2 : List (Label W V P)),
      h ++ l = h1 ++ .pass c1 :: h2 →
      (∃ h2', h = h1 ++ .pass c1 :: h2' ∧ h2 = h2' ++ l)
      ∨ (∃ l1, l = l1 ++ .pass c1 :: h2) := by
    intro h l h1 c1 h2 he
    rcases List.append_eq_append_iff.mp he with ⟨a, h1e, h2e⟩ | ⟨a, h1e, h2e⟩
    · exact Or.inr ⟨a, h2e⟩
    · cases a with
      | nil => exact Or.inr ⟨[], h2e.symm⟩
      | cons b bs =>
        left
        simp only [List.cons_append, List.cons.injEq] at h2e
        obtain ⟨rfl, rfl⟩ := h2e
        exact ⟨bs, h1e, rfl⟩
  have inp : ∀ (c : Ctx W V P) i, (applyInput cfg c i).hasChanges = c.hasChanges := by
    intro c i
    cases i with
    | script n s => simp only [applyInput]; split <;> rfl
    | _ => rfl
  have new : ∀ c : Ctx W V P, Edits cfg c → (step cfg c).ctx.hasChanges = true := by
    rintro c ⟨hl, h⟩
    rcases h with ⟨f, hf, hch⟩ | ⟨f, hf, hch, hne⟩
    · obtain ⟨fr, rest, hs⟩ := stack_of_fetch hf
      rcases step_cases (cfg := cfg) hs with ⟨_, i, hi, hfe, ⟨hl', e⟩ | ⟨hl', e⟩⟩ | ⟨hfn, _⟩ | ⟨hfn, _⟩
      · omega
      · rw [hf] at hfe
        injection hfe with hfe
        subst hfe
        have hch' : (f ({ c with numInstr := c.numInstr + 1, pos := c.pos + 1 } : Ctx W V P).view).2 = true := hch
        rw [e]
        simp [exec, Step.ctx, hch']
      · rw [hf] at hfn; simp at hfn
      · rw [hf] at hfn; simp at hfn
    · obtain ⟨fr, rest, hs⟩ := stack_of_fetch hf
      rcases step_cases (cfg := cfg) hs with ⟨_, i, hi, hfe, ⟨hl', e⟩ | ⟨hl', e⟩⟩ | ⟨hfn, _⟩ | ⟨hfn, _⟩
      · omega
      · rw [hf] at hfe
        injection hfe with hfe
        subst hfe
        have hch' : (f ({ c with numInstr := c.numInstr + 1, pos := c.pos + 1 } : Ctx W V P).view).changed = true := hch
        have hne' : ∀ p, (f ({ c with numInstr := c.numInstr + 1, pos := c.pos + 1 } : Ctx W V P).view).res ≠ .error p := hne
        rw [e]
        simp only [exec]
        split
        · simp [Step.ctx, hch']
        · simp [Step.ctx, hch']
        · rename_i p hp
          exact absurd hp (hne' p)
      · rw [hf] at hfn; simp at hfn
      · rw [hf] at hfn; simp at hfn
  induction hh with
  | start => intro h1 c1 h2 he; simp at he
  | @feedRet h c i o c' hh he ih =>
    intro h1 c1 h2 hk hE hD
    have hc : c'.hasChanges = c.hasChanges := by
      rcases enter_ret he with ⟨ev, q, hq, rfl, rfl⟩ | ⟨hq, _, rfl, rfl⟩ <;> exact inp c i
    rcases key _ _ _ _ _ hk with ⟨h2', rfl, rfl⟩ | ⟨l1, hl⟩
    · exact hc.trans (ih h1 c1 h2' rfl hE (fun c2 h => hD c2 (by simp [h])))
    · exfalso
      rcases l1 with _ | ⟨a, _ | ⟨b, l1⟩⟩ <;> simp at hl
  | @feedGo h c i c' hh he ih =>
    intro h1 c1 h2 hk hE hD
    obtain ⟨rfl, _⟩ := enter_cont he
    rcases key _ _ _ _ _ hk with ⟨h2', rfl, rfl⟩ | ⟨l1, hl⟩
    · exact (inp c i).trans (ih h1 c1 h2' rfl hE (fun c2 h => hD c2 (by simp [h])))
    · exfalso
      rcases l1 with _ | ⟨a, l1⟩ <;> simp at hl
  | @pass h c c' hh he ih =>
    intro h1 c1 h2 hk hE hD
    rcases key _ _ _ _ _ hk with ⟨h2', rfl, rfl⟩ | ⟨l1, hl⟩
    · have := step_changes (cfg := cfg) (ih h1 c1 h2' rfl hE (fun c2 h => hD c2 (by simp [h])))
        (hD c (by simp [passes]))
      simp only [modeCtx] at this ⊢
      rwa [he] at this
    · rcases l1 with _ | ⟨a, l1⟩
      · simp only [List.nil_append, List.cons.injEq, Label.pass.injEq] at hl
        obtain ⟨rfl, _⟩ := hl
        have := new _ hE
        rwa [he] at this
      · simp at hl
  | @passRet h c o c' hh he ih =>
    intro h1 c1 h2 hk hE hD
    rcases key _ _ _ _ _ hk with ⟨h2', rfl, rfl⟩ | ⟨l1, hl⟩
    · have := step_changes (cfg := cfg) (ih h1 c1 h2' rfl hE (fun c2 h => hD c2 (by simp [h])))
        (hD c (by simp [passes]))
      simp only [modeCtx] at this ⊢
      rwa [he] at this
    · rcases l1 with _ | ⟨a, _ | ⟨b, l1⟩⟩
      · simp only [List.nil_append, List.cons.injEq, Label.pass.injEq] at hl
        obtain ⟨rfl, _⟩ := hl
        have := new _ hE
        rwa [he] at this
      · simp at hl
      · simp at hl

/-- **C14 (2).** When the message was edited and not handed over since, the next `fileinto`,
carried-out `redirect` or `keep` first announces the message under a new id, with the contents it
has now, and then refers to that id. -/
theorem edited_delivery {cfg : Cfg W V P} {w : W} {h1 c1 h2 c i}
    (hh : Hist cfg (Ctx.new w) (h1 ++ .pass c1 :: h2) (.running c)) (hE : Edits cfg c1)
    (hD : ∀ c2 ∈ passes h2, ¬ Delivers cfg c2)
    (hf : fetch c = some i) (hl : c.numInstr < cfg.cpuLimit) :
    ∃ id, id ≠ 0 ∧ id ∉ ids (events (h1 ++ .pass c1 :: h2)) ∧
      match i with
      | .fileInto _ dest flags => ∃ c', step cfg c = .ret (.event (.created id (cfg.render c.world))) c'
          ∧ c'.queue = [.fileInto (dest c.view) (flags c.view) id]
      | .redirect list _ addr => Redirects cfg c list addr → ∃ c' a, addr c.view = some a ∧
          step cfg c = .ret (.event (.created id (cfg.render c.world))) c'
          ∧ c'.queue = [.send .redirect a id]
      | .keep flags => ∃ c', step cfg c = .ret (.event (.created id (cfg.render c.world))) c'
          ∧ c'.final = some (.keep (flags c.view) id)
      | _ => True := by
  have hc : c.hasChanges = true := edit_pending hh h1 c1 h2 rfl hE hD
  obtain ⟨k1, _⟩ := running_inv hh
  refine ⟨c.lastId + 1, by omega, ?_, ?_⟩
  · intro hm
    have := k1.le _ hm
    omega
  · obtain ⟨fr, rest, hs⟩ := stack_of_fetch hf
    rcases step_cases (cfg := cfg) hs with ⟨_, i, hi, hfe, ⟨hl', e⟩ | ⟨hl', e⟩⟩ | ⟨hfn, _⟩ | ⟨hfn, _⟩
    · omega
    · rw [hf] at hfe
      injection hfe with hfe
      subst hfe
      split
      · rw [e]
        simp only [exec, execFileInto, buildMessageId, hc, if_true, drain]
        exact ⟨_, rfl, rfl⟩
      · rename_i list copy addr _
        intro hr
        obtain ⟨a, ha, h3, h4, h5, h6⟩ := hr
        have ha' : addr ({ c with numInstr := c.numInstr + 1, pos := c.pos + 1 } : Ctx W V P).view = some a := ha
        have h7 : ¬ (!list && cfg.own c.world a) = true := by
          rcases h6 with rfl | h6
          · simp
          · simp [h6]
        rw [e]
        simp only [exec, execRedirect]
        rw [ha']
        simp only [h3, h4, h5, and_self, if_true]
        rw [if_neg h7]
        simp only [buildMessageId, hc, if_true, drain]
        exact ⟨_, a, ha, rfl, rfl⟩
      · rw [e]
        simp only [exec, buildMessageId, hc, if_true]
        exact ⟨_, rfl, rfl⟩
      · trivial
    · rw [hf] at hfn; simp at hfn
    · rw [hf] at hfn; simp at hfn

/-- How a pass ends the run: by leaving the loop normally, or with an error. -/
theorem step_ends {cfg : Cfg W V P} {c c' : Ctx W V P} {o} (hs : c.stack ≠ [])
    (h : step cfg c = .ret o c') (he : c'.stack = []) :
    ∃ d : Ctx W V P, d.final = c.final ∧ (c.hasChanges = true → d.hasChanges = true)
      ∧ d.lastId = c.lastId ∧ (step cfg c = finish cfg d ∨ ∃ er, step cfg c = .ret (.error er) (finishLoop cfg d)) := by
  have dr : ∀ {d d' : Ctx W V P} {o}, drain d = .ret o d' → d'.stack = d.stack := by
    intro d d' o h
    unfold drain at h
    split at h
    · simp at h
    · injection h with _ h
      subst h
      rfl
  cases hst : c.stack with
  | nil => exact absurd hst hs
  | cons fr rest =>
    rcases step_cases (cfg := cfg) hst with ⟨_, i, hi, hfe, ⟨hl', e⟩ | ⟨hl', e⟩⟩ | ⟨_, _, e⟩ | ⟨_, _, e⟩
    · exact ⟨{ c with numInstr := c.numInstr + 1 }, rfl, id, rfl, Or.inr ⟨_, e⟩⟩
    · rw [e] at h ⊢
      have no : ∀ d : Ctx W V P, d = c' → d.stack = c.stack → False := by
        rintro d rfl h1
        exact hs (h1.symm.trans he)
      cases i with
      | jz t => simp [exec] at h
      | jnz t => simp [exec] at h
      | jmp t => simp [exec] at h
      | test f =>
        simp only [exec] at h ⊢
        split at h
        · simp at h
        · injection h with _ h
          exact (no _ h rfl).elim
        · rename_i p hp
          refine ⟨_, ?_, ?_, ?_, Or.inr ⟨_, rfl⟩⟩
          · rfl
          · intro hc
            simp [hc]
          · rfl
      | eval f =>
        simp only [exec] at h
        split at h
        · simp at h
        · injection h with _ h
          exact (no _ h rfl).elim
      | clear a b m => simp [exec] at h
      | keep fl =>
        simp only [exec] at h
        split at h
        · simp at h
        · injection h with _ h
          exact (no _ h (by simp)).elim
      | fileInto a b f =>
        have := (dr h).trans (sameCtl_fileInto cfg _ a b f).1
        exact (no _ rfl this).elim
      | redirect a b f =>
        have := (dr h).trans (sameCtl_redirect cfg _ a b f).1
        exact (no _ rfl this).elim
      | discard => simp [exec] at h
      | stop => exact ⟨{ c with numInstr := c.numInstr + 1, pos := c.pos + 1, stack := [] }, rfl, id, rfl, Or.inl rfl⟩
      | reject f =>
        simp only [exec] at h
        injection h with _ h
        exact (no _ h rfl).elim
      | forEveryPart t =>
        simp only [exec] at h
        split at h
        · simp at h
        · split at h <;> simp at h
      | forEveryPartPush => simp [exec] at h
      | forEveryPartPop n => simp [exec] at h
      | «while» f t =>
        simp only [exec] at h
        split at h
        · simp at h
        · injection h with _ h
          exact (no _ h rfl).elim
      | let_ t f =>
        simp only [exec] at h
        split at h
        · simp at h
        · injection h with _ h
          exact (no _ h rfl).elim
      | edit f => simp [exec] at h
      | assign t f =>
        have := (dr h).trans (sameCtl_setTarget _ t _).1
        exact (no _ rfl this).elim
      | editFlags t f => simp [exec] at h
      | notify f g =>
        have := (dr h).trans (sameCtl_notify cfg _ f g).1
        exact (no _ rfl this).elim
      | vacation f g =>
        have := (dr (d := execVacation _ f g) h).trans (sameCtl_vacation _ f g).1
        exact (no _ rfl this).elim
      | «include» a b f =>
        simp only [exec] at h ⊢
        split at h
        · simp at h
        · injection h with _ h
          exact (no _ h rfl).elim
        · exact ⟨{ c with numInstr := c.numInstr + 1, pos := c.pos + 1 }, rfl, id, rfl, Or.inr ⟨_, rfl⟩⟩
        · simp at h
      | return_ =>
        simp only [exec] at h ⊢
        unfold leave at h ⊢
        rw [show ({ c with numInstr := c.numInstr + 1, pos := c.pos + 1 } : Ctx W V P).stack = fr :: rest from hst] at h ⊢
        simp only at h ⊢
        split at h
        · rename_i hr
          rw [if_pos hr]
          exact ⟨{ c with numInstr := c.numInstr + 1, stack := rest, pos := fr.prevPos, locals := fr.prevLocals, matchv := fr.prevMatch },
            rfl, id, rfl, Or.inl rfl⟩
        · simp at h
      | require caps =>
        simp only [exec] at h ⊢
        split at h
        · simp at h
        · exact ⟨{ c with numInstr := c.numInstr + 1, pos := c.pos + 1 }, rfl, id, rfl, Or.inr ⟨_, rfl⟩⟩
      | error f => exact ⟨{ c with numInstr := c.numInstr + 1, pos := c.pos + 1 }, rfl, id, rfl, Or.inr ⟨_, rfl⟩⟩
      | invalid p => exact ⟨{ c with numInstr := c.numInstr + 1, pos := c.pos + 1 }, rfl, id, rfl, Or.inr ⟨_, rfl⟩⟩
    · rw [e] at h ⊢
      unfold leave at h ⊢
      rw [hst] at h ⊢
      simp only at h ⊢
      split at h
      · rename_i hr
        rw [if_pos hr]
        exact ⟨{ c with stack := rest, pos := fr.prevPos, locals := fr.prevLocals, matchv := fr.prevMatch },
          rfl, id, rfl, Or.inl rfl⟩
      · simp at h
    · rw [e] at h
      injection h with _ h
      subst h
      exact absurd he hs

/-- **C14 (3).** When the message was edited and not handed over since, and the run ends with a
`Keep` outstanding, then that `Keep` refers to a newly announced id. -/
theorem edited_keep {cfg : Cfg W V P} {w : W} {h1 c1 h2 c o c' fl i}
    (hh : Hist cfg (Ctx.new w) (h1 ++ .pass c1 :: h2) (.running c)) (hE : Edits cfg c1)
    (hD : ∀ c2 ∈ passes h2, ¬ Delivers cfg c2) (hst : c.stack ≠ [])
    (hs : step cfg c = .ret o c') (he : c'.stack = []) (hf : c.final = some (.keep fl i)) :
    ∃ id p fl', id ≠ 0 ∧ id ∉ ids (events (h1 ++ .pass c1 :: h2)) ∧
      emitted (step cfg c) = [.created id p, .keep fl' id] := by
  have hc : c.hasChanges = true := edit_pending hh h1 c1 h2 rfl hE hD
  obtain ⟨k1, _⟩ := running_inv hh
  obtain ⟨d, d1, d2, d3, d4⟩ := step_ends hst hs he
  have hset : ∃ p fl', ∃ c2 : List (Frame W V P) → Ctx W V P, ∀ st, settle cfg { d with stack := st } = ([.created (d.lastId + 1) p, .keep fl' (d.lastId + 1)], c2 st) := by
    unfold settle
    rw [d1, hf]
    simp only [buildMessageId, d2 hc, if_true]
    exact ⟨_, _, fun st => { d with stack := st, final := none, lastId := d.lastId + 1, mainId := d.lastId + 1, hasChanges := false }, fun st => rfl⟩
  obtain ⟨p, fl', c2, hset⟩ := hset
  refine ⟨d.lastId + 1, p, fl', by omega, ?_, ?_⟩
  · intro hm
    have := k1.le _ hm
    omega
  · have h0 := hset d.stack
    rcases d4 with e | ⟨er, e⟩
    · rw [e]
      unfold finish
      rw [show d = { d with stack := d.stack } from rfl, h0]
      rfl
    · rw [e]
      unfold finishLoop
      rw [hset []]
      rfl

/-- Two edits with a delivery after each of them. -/
example : sees (start [addHeaderI, fileTo "A" true, fileTo "B" true, addHeaderI, .jmp 5, fileTo "C" true]
      :: List.replicate 7 .true)
    = some [.event (.created 1 "message"), .event (.fileInto "A" [] 1), .event (.fileInto "B" [] 1),
        .event (.created 2 "message"), .event (.fileInto "C" [] 2), .event (.keep [] 0), .none, .none] := by
  decide

/-! ## C46: what is behind an id -/

/-- The message `id` has the contents `p`: it is the original message, or was announced so. -/
def Holds (orig : P) (E : List (Event P)) (id : Nat) (p : P) : Prop :=
  (id = 0 ∧ p = orig) ∨ .created id p ∈ E

/-- The contents behind an id are unambiguous. -/
theorem holds_unique {orig : P} {E : List (Event P)} (h : Announced E) {id p q}
    (hp : Holds orig E id p) (hq : Holds orig E id q) : p = q := by
  have pos : ∀ {id p}, .created id p ∈ E → 0 < id := by
    intro id p hm
    obtain ⟨a, b, rfl⟩ := List.append_of_mem hm
    exact ((h a _ b rfl).2 id rfl).1
  have uniq : ∀ {l : List (Event P)}, Announced l → .created id p ∈ l → .created id q ∈ l → p = q := by
    intro l
    induction l using List.reverseRecOn with
    | nil => simp
    | append_singleton l e ih =>
      intro hl h1 h2
      have hlast := (hl l e [] (by simp)).2
      have hmem : ∀ {r}, .created id r ∈ l → id ∈ ids l := by
        intro r hr
        simp only [ids, List.mem_filterMap]
        exact ⟨_, hr, rfl⟩
      simp only [List.mem_append, List.mem_singleton] at h1 h2
      rcases h1 with h1 | h1 <;> rcases h2 with h2 | h2
      · exact ih (announced_prefix hl) h1 h2
      · subst h2
        have := (hlast id rfl).2 id (hmem h1)
        omega
      · subst h1
        have := (hlast id rfl).2 id (hmem h2)
        omega
      · rw [← h1] at h2
        injection h2 with _ h2
        exact h2.symm
  rcases hp with ⟨h1, h2⟩ | h1 <;> rcases hq with ⟨h3, h4⟩ | h3
  · rw [h2, h4]
  · have := pos h3; omega
  · have := pos h1; omega
  · exact uniq h h1 h3

/-- Evaluating an expression does not change the message. -/
def KeepsMsgE (cfg : Cfg W V P) (v : View W V) : ExprOut W V P → Prop
  | .done _ w => cfg.render w = cfg.render v.world
  | .call _ w => cfg.render w = cfg.render v.world

/-- Assigning a variable does not change the message. -/
def KeepsMsgT (cfg : Cfg W V P) : Target W V P → Prop
  | .global f => ∀ w x, cfg.render (f w x) = cfg.render w
  | .envelope f => ∀ w x, cfg.render (f w x).1 = cfg.render w
  | _ => True

/-- Instructions change the message only if they say so. -/
def KeepsMsg (cfg : Cfg W V P) : Instr W V P → Prop
  | .test f => ∀ v, (f v).changed = false → cfg.render (f v).world = cfg.render v.world
  | .eval f => ∀ v, KeepsMsgE cfg v (f v)
  | .while f _ => ∀ v, KeepsMsgE cfg v (f v)
  | .let_ t f => (∀ v, KeepsMsgE cfg v (f v)) ∧ KeepsMsgT cfg t
  | .edit f => ∀ v, (f v).2 = false → cfg.render (f v).1 = cfg.render v.world
  | .assign t _ => KeepsMsgT cfg t
  | .editFlags t _ => KeepsMsgT cfg t
  | _ => True

/-- `E` holds the current contents of the message under its current id, unless there are pending
changes. -/
def Cur (cfg : Cfg W V P) (orig : P) (E : List (Event P)) (c : Ctx W V P) : Prop :=
  c.hasChanges = false → Holds orig E c.mainId (cfg.render c.world)

theorem Holds.append {orig : P} {E : List (Event P)} {id p} (h : Holds orig E id p) (l) :
    Holds orig (E ++ l) id p := by
  rcases h with h | h
  · exact Or.inl h
  · exact Or.inr (List.mem_append_left _ h)

theorem Cur.append {cfg : Cfg W V P} {orig : P} {E} {c : Ctx W V P} (h : Cur cfg orig E c) (l) :
    Cur cfg orig (E ++ l) c := fun hc => (h hc).append l

theorem Cur.ctx {cfg : Cfg W V P} {orig : P} {E} {c c' : Ctx W V P} (h : Cur cfg orig E c)
    (h1 : c'.hasChanges = false → c.hasChanges = false ∧ cfg.render c'.world = cfg.render c.world)
    (h2 : c'.mainId = c.mainId) : Cur cfg orig E c' := by
  intro hc
  rw [h2, (h1 hc).2]
  exact h (h1 hc).1

theorem Cur.build {cfg : Cfg W V P} {orig : P} {E} {c : Ctx W V P} (h : Cur cfg orig E c) :
    Cur cfg orig (E ++ (buildMessageId cfg c).1) (buildMessageId cfg c).2
    ∧ Holds orig (E ++ (buildMessageId cfg c).1) (buildMessageId cfg c).2.mainId (cfg.render c.world) := by
  unfold buildMessageId
  split
  · have : Holds orig (E ++ [.created (c.lastId + 1) (cfg.render c.world)]) (c.lastId + 1)
        (cfg.render c.world) := Or.inr (by simp)
    exact ⟨fun _ => this, this⟩
  · rename_i hc
    have hc : c.hasChanges = false := by simpa using hc
    exact ⟨by simpa using h, by simpa using h hc⟩

theorem emitted_drain (c : Ctx W V P) : emitted (drain c) = c.queue := by
  unfold drain
  split
  · rename_i h
    simp [emitted]
  · rename_i e q h
    simp [emitted, evs, h]

theorem cur_drain {cfg : Cfg W V P} {orig : P} {E} {c : Ctx W V P} (h : Cur cfg orig E c) :
    Cur cfg orig E (drain c).ctx := by
  unfold drain
  split
  · exact h
  · exact h

theorem cur_settle {cfg : Cfg W V P} {orig : P} {E} {c : Ctx W V P} (h : Cur cfg orig E c) :
    Cur cfg orig (E ++ (settle cfg c).1) (settle cfg c).2 := by
  unfold settle
  split
  · have := (Cur.build (c := { c with final := none }) (cfg := cfg) (orig := orig) (E := E) h).1
    simp only
    split
    · rename_i hb
      rw [hb] at this
      exact Cur.append (by simpa using this) _
    · rw [← List.append_assoc]
      exact Cur.append this _
  · exact Cur.append (c := { c with final := none }) h _
  · exact Cur.append h _

theorem cur_finish {cfg : Cfg W V P} {orig : P} {E} {c : Ctx W V P} (h : Cur cfg orig E c) :
    Cur cfg orig (E ++ emitted (finish cfg c)) (finish cfg c).ctx := by
  have h1 := cur_settle h
  unfold finish
  split
  · rename_i c' he
    rw [he] at h1
    simp only [List.append_nil] at h1
    exact Cur.append h1 _
  · rename_i e c' he
    rw [he] at h1
    simp only [emitted, evs, ← List.append_assoc]
    exact Cur.append h1 _
  · rename_i e es c' _ he
    rw [he] at h1
    exact h1

theorem cur_finishLoop {cfg : Cfg W V P} {orig : P} {E} {c : Ctx W V P} (h : Cur cfg orig E c) :
    Cur cfg orig (E ++ (finishLoop cfg c).queue) (finishLoop cfg c) := by
  have h1 := cur_settle (c := { c with stack := [] }) (E := E) (orig := orig) (cfg := cfg) h
  unfold finishLoop
  split
  · rename_i c' he
    rw [he] at h1
    exact Cur.append (by simpa using h1) _
  · rename_i es c' _ he
    rw [he] at h1
    exact h1

theorem cur_setTarget {cfg : Cfg W V P} {orig : P} {E} {c : Ctx W V P} (h : Cur cfg orig E c) {t}
    (ht : KeepsMsgT cfg t) (v) : Cur cfg orig E (setTarget c t v) := by
  cases t with
  | «local» i => exact h
  | global f => exact h.ctx (fun hc => ⟨hc, ht _ _⟩) rfl
  | envelope f => exact h.ctx (fun hc => ⟨hc, ht _ _⟩) rfl
  | other => exact h

theorem cur_popParts {cfg : Cfg W V P} {orig : P} {E} (n : Nat) {c : Ctx W V P} (h : Cur cfg orig E c) :
    Cur cfg orig E (popParts n c) := by
  have hw : ∀ (n : Nat) (c : Ctx W V P), (popParts n c).world = c.world := by
    intro n
    induction n with
    | zero => intro c; rfl
    | succ n ih =>
      intro c
      unfold popParts
      split
      · rfl
      · rw [ih]
  refine h.ctx ?_ (popParts_ids n c).2.1
  rw [popParts_changes, hw]
  exact fun hc => ⟨hc, rfl⟩

theorem cur_exec {cfg : Cfg W V P} {orig : P} {E} {c : Ctx W V P} (h : Cur cfg orig E c)
    {i : Instr W V P} (hi : KeepsMsg cfg i) :
    Cur cfg orig (E ++ emitted (exec cfg c i)) (exec cfg c i).ctx := by
  have ap : ∀ {c' : Ctx W V P} l, Cur cfg orig E c' → Cur cfg orig (E ++ l) c' := fun l h => h.append l
  cases i with
  | jz t => simp only [exec]; apply ap; simp only [Step.ctx]; split <;> exact h
  | jnz t => simp only [exec]; apply ap; simp only [Step.ctx]; split <;> exact h
  | jmp t => exact ap _ h
  | test f =>
    have hw : (f c.view).changed = false → cfg.render (f c.view).world = cfg.render c.world := hi c.view
    have hcur : Cur cfg orig E { c with world := (f c.view).world, matchv := (f c.view).matchv,
                                        hasChanges := c.hasChanges || (f c.view).changed } := by
      refine h.ctx ?_ rfl
      intro hc
      simp only [Bool.or_eq_false_iff] at hc
      exact ⟨hc.1, hw hc.2⟩
    simp only [exec]
    split
    · exact ap _ hcur
    · exact ap _ hcur
    · exact cur_finishLoop hcur
  | eval f =>
    have hw := hi c.view
    simp only [exec]
    split
    · rename_i hv
      rw [hv] at hw
      exact ap _ (h.ctx (fun hc => ⟨hc, hw⟩) rfl)
    · rename_i hv
      rw [hv] at hw
      exact ap _ (h.ctx (fun hc => ⟨hc, hw⟩) rfl)
  | clear a b m => exact ap _ h
  | keep fl =>
    have hb := (Cur.build h (cfg := cfg)).1
    simp only [exec]
    split
    · rename_i hn
      rw [hn] at hb
      simp only [List.append_nil] at hb
      exact ap _ (hb.ctx (fun hc => ⟨hc, rfl⟩) rfl)
    · rename_i e l he
      have hl : l = [] := by
        rcases build_short cfg c with h | ⟨x, h⟩ <;> rw [he] at h <;> simp_all
      subst hl
      rw [he] at hb
      simp only [emitted, evs, ← List.append_assoc]
      exact Cur.append (hb.ctx (fun hc => ⟨hc, rfl⟩) rfl) _
  | fileInto a b f =>
    have hb := (Cur.build h (cfg := cfg)).1
    simp only [exec, emitted_drain]
    apply cur_drain
    simp only [execFileInto, ← List.append_assoc]
    exact Cur.append (hb.ctx (fun hc => ⟨hc, rfl⟩) rfl) _
  | redirect l cp addr =>
    simp only [exec, emitted_drain]
    apply cur_drain
    unfold execRedirect
    split
    · exact ap _ h
    · split
      · split
        · exact ap _ h
        · simp only [← List.append_assoc]
          refine Cur.append ?_ _
          refine Cur.ctx (Cur.build ?_).1 (fun hc => ⟨hc, rfl⟩) rfl
          exact h
      · exact ap _ h
  | discard => exact ap _ h
  | stop => exact cur_finish (c := { c with stack := [] }) h
  | reject f => exact ap _ h
  | forEveryPart t =>
    simp only [exec]
    split
    · exact ap _ h
    · split
      · exact ap _ h
      · exact ap _ h
  | forEveryPartPush => exact ap _ h
  | forEveryPartPop n => exact ap _ (cur_popParts n h)
  | «while» f t =>
    have hw := hi c.view
    simp only [exec]
    split
    · rename_i hv
      rw [hv] at hw
      apply ap
      simp only [Step.ctx]
      split <;> exact h.ctx (fun hc => ⟨hc, hw⟩) rfl
    · rename_i hv
      rw [hv] at hw
      exact ap _ (h.ctx (fun hc => ⟨hc, hw⟩) rfl)
  | let_ t f =>
    have hw := hi.1 c.view
    simp only [exec]
    split
    · rename_i v w hv
      rw [hv] at hw
      refine ap _ (cur_setTarget ?_ hi.2 _)
      exact h.ctx (c' := { c with world := w }) (fun hc => ⟨hc, hw⟩) rfl
    · rename_i hv
      rw [hv] at hw
      exact ap _ (h.ctx (fun hc => ⟨hc, hw⟩) rfl)
  | edit f =>
    refine ap _ (h.ctx ?_ rfl)
    intro hc
    simp only [exec, Step.ctx, Bool.or_eq_false_iff] at hc
    exact ⟨hc.1, hi c.view hc.2⟩
  | assign t f =>
    simp only [exec]
    exact ap _ (cur_drain (cur_setTarget h hi _))
  | editFlags t f => exact ap _ (cur_setTarget h hi _)
  | notify f g =>
    simp only [exec]
    refine ap _ (cur_drain ?_)
    unfold execNotify
    split
    · exact h
    · split
      · exact h
      · exact h
      · split
        · exact h
        · exact h
  | vacation f g =>
    show Cur cfg orig (E ++ emitted (drain (execVacation c f g))) (drain (execVacation c f g)).ctx
    refine ap _ (cur_drain ?_)
    exact h
  | «include» a b f =>
    simp only [exec]
    split
    · exact ap _ h
    · exact ap _ h
    · exact cur_finishLoop h
    · exact ap _ h
  | return_ =>
    simp only [exec]
    unfold leave
    split
    · exact cur_finish h
    · rename_i fr rest hs
      simp only
      split
      · exact cur_finish (c := { c with stack := rest, pos := fr.prevPos, locals := fr.prevLocals, matchv := fr.prevMatch }) h
      · exact ap _ h
  | require caps =>
    simp only [exec]
    split
    · exact ap _ h
    · exact cur_finishLoop h
  | error f => exact cur_finishLoop h
  | invalid p => exact cur_finishLoop h

/-- While the interpreter runs, only `SetEnvelope` events are queued; they announce nothing. -/
theorem Cur.settled {cfg : Cfg W V P} {orig : P} {E} {c : Ctx W V P} (hs : Settled c)
    (h : Cur cfg orig (E ++ c.queue) c) : Cur cfg orig E c := by
  intro hc
  rcases h hc with h | h
  · exact Or.inl h
  · rw [List.mem_append] at h
    rcases h with h | h
    · exact Or.inr h
    · obtain ⟨p, hp⟩ := hs _ h
      simp at hp

theorem cur_step {cfg : Cfg W V P} {orig : P} {E} {c : Ctx W V P} (h : Cur cfg orig E c)
    (hk : AllScripts (fun s => ∀ i ∈ s.instrs, KeepsMsg cfg i) c) :
    Cur cfg orig (E ++ emitted (step cfg c)) (step cfg c).ctx := by
  cases hs : c.stack with
  | nil =>
    simp only [step, hs]
    exact h.append _
  | cons fr rest =>
    rcases step_cases (cfg := cfg) hs with ⟨_, i, hi, hfe, ⟨hl', e⟩ | ⟨hl', e⟩⟩ | ⟨_, _, e⟩ | ⟨_, _, e⟩
    · rw [e]
      exact cur_finishLoop (c := { c with numInstr := c.numInstr + 1 }) h
    · rw [e]
      refine cur_exec (c := { c with numInstr := c.numInstr + 1, pos := c.pos + 1 }) h ?_
      exact hk.1 fr (by rw [hs]; simp) i (List.mem_of_getElem? hi)
    · rw [e]
      unfold leave
      rw [hs]
      simp only
      split
      · exact cur_finish (c := { c with stack := rest, pos := fr.prevPos, locals := fr.prevLocals, matchv := fr.prevMatch }) h
      · exact Cur.append (c := { c with stack := rest, pos := fr.prevPos, locals := fr.prevLocals, matchv := fr.prevMatch }) h _
    · rw [e]
      exact h.append _

theorem emitted_settled {s : Step W V P} : ∀ {c}, s = .cont c → emitted s = c.queue := by
  rintro c rfl; rfl

/-- The invariant behind C46. -/
theorem current {cfg : Cfg W V P} {w : W} {h m} (hh : Hist cfg (Ctx.new w) h m)
    (hpush : ∀ w x, cfg.render (cfg.pushResult w x) = cfg.render w)
    (hreg : ∀ n s, cfg.registered n = some s → ∀ i ∈ s.instrs, KeepsMsg cfg i)
    (hhost : ∀ s ∈ scriptsOf h, ∀ i ∈ s.instrs, KeepsMsg cfg i) :
    match m with
    | .running c => Cur cfg (cfg.render w) (events h) c
    | .waiting c => Cur cfg (cfg.render w) (events h ++ c.queue) c := by
  have inp : ∀ (c : Ctx W V P) i E, Cur cfg (cfg.render w) E c → Cur cfg (cfg.render w) E (applyInput cfg c i) := by
    intro c i E h
    cases i with
    | script n s => simp only [applyInput]; split <;> exact h
    | fncResult v => exact h.ctx (fun hc => ⟨hc, hpush _ _⟩) rfl
    | _ => exact h
  have qinp : ∀ (c : Ctx W V P) i, (applyInput cfg c i).queue = c.queue := by
    intro c i
    cases i with
    | script n s => simp only [applyInput]; split <;> rfl
    | _ => rfl
  induction hh with
  | start => exact fun _ => Or.inl ⟨rfl, rfl⟩
  | @feedRet h c i o c' hh he ih =>
    have ih := ih (fun s hs => hhost s (by rw [scriptsOf_append]; simp [hs]))
    have h1 := inp c i _ ih
    rw [← qinp c i] at h1
    rcases enter_ret he with ⟨ev, q, hq, rfl, rfl⟩ | ⟨hq, _, rfl, rfl⟩
    · rw [hq] at h1
      simp only [events_append, List.append_assoc]
      exact h1.ctx (fun hc => ⟨hc, rfl⟩) rfl
    · simp only [events_append, List.append_assoc]
      exact h1
  | @feedGo h c i c' hh he ih =>
    have ih := ih (fun s hs => hhost s (by rw [scriptsOf_append]; simp [hs]))
    have h1 := inp c i _ ih
    rw [← qinp c i] at h1
    obtain ⟨rfl, hq, _⟩ := enter_cont he
    rw [hq] at h1
    simpa [events] using h1
  | @pass h c c' hh he ih =>
    have hsc : ∀ s ∈ scriptsOf h, ∀ i ∈ s.instrs, KeepsMsg cfg i :=
      fun s hs => hhost s (by rw [scriptsOf_append]; simp [hs])
    have h1 := cur_step (ih hsc) (all_scripts (Q := fun s => ∀ i ∈ s.instrs, KeepsMsg cfg i) hreg hh hsc)
    rw [he] at h1
    obtain ⟨k1, k2⟩ := running_inv (Hist.pass hh he)
    have := Cur.settled k2 h1
    simpa [events] using this
  | @passRet h c o c' hh he ih =>
    have hsc : ∀ s ∈ scriptsOf h, ∀ i ∈ s.instrs, KeepsMsg cfg i :=
      fun s hs => hhost s (by rw [scriptsOf_append]; simp [hs])
    have h1 := cur_step (ih hsc) (all_scripts (Q := fun s => ∀ i ∈ s.instrs, KeepsMsg cfg i) hreg hh hsc)
    rw [he] at h1
    simp only [events_append]
    rw [events_output o _ rfl]
    simpa [emitted, Step.ctx] using h1

/-- **C46, partial.** If instructions change the message only when they report a change, then every
message filed by `fileinto` or sent by `redirect` is the message as edited so far: the id in the
event holds the current contents.  What is missing is the final `Keep`, which may refer to an
outdated id (`implicit_keep_outdated`). -/
theorem delivered_current_partial {cfg : Cfg W V P} {w : W} {h c i}
    (hh : Hist cfg (Ctx.new w) h (.running c))
    (hpush : ∀ w x, cfg.render (cfg.pushResult w x) = cfg.render w)
    (hreg : ∀ n s, cfg.registered n = some s → ∀ i ∈ s.instrs, KeepsMsg cfg i)
    (hhost : ∀ s ∈ scriptsOf h, ∀ i ∈ s.instrs, KeepsMsg cfg i)
    (hf : fetch c = some i) (hl : c.numInstr < cfg.cpuLimit) :
    match i with
    | .fileInto _ dest flags => ∃ pre id,
        emitted (step cfg c) = pre ++ [.fileInto (dest c.view) (flags c.view) id]
        ∧ Holds (cfg.render w) (events h ++ pre) id (cfg.render c.world)
    | .redirect list _ addr => Redirects cfg c list addr → ∃ pre a id, addr c.view = some a ∧
        emitted (step cfg c) = pre ++ [.send .redirect a id]
        ∧ Holds (cfg.render w) (events h ++ pre) id (cfg.render c.world)
    | _ => True := by
  have hcur : Cur cfg (cfg.render w) (events h) c := current hh hpush hreg hhost
  obtain ⟨fr, rest, hs⟩ := stack_of_fetch hf
  rcases step_cases (cfg := cfg) hs with ⟨_, i, hi, hfe, ⟨hl', e⟩ | ⟨hl', e⟩⟩ | ⟨hfn, _⟩ | ⟨hfn, _⟩
  · omega
  · rw [hf] at hfe
    injection hfe with hfe
    subst hfe
    split
    · rw [e]
      simp only [exec, emitted_drain, execFileInto]
      exact ⟨_, _, rfl, (Cur.build (c := { c with numInstr := c.numInstr + 1, pos := c.pos + 1 })
        (cfg := cfg) (E := events h) hcur).2⟩
    · rename_i list copy addr _
      rintro ⟨a, ha, h3, h4, h5, h6⟩
      have ha' : addr ({ c with numInstr := c.numInstr + 1, pos := c.pos + 1 } : Ctx W V P).view = some a := ha
      have h7 : ¬ (!list && cfg.own c.world a) = true := by
        rcases h6 with rfl | h6
        · simp
        · simp [h6]
      rw [e]
      simp only [exec, emitted_drain, execRedirect, ha', h3, h4, h5, and_self, if_true]
      rw [if_neg h7]
      exact ⟨_, a, _, ha, rfl, (Cur.build (c := { c with numInstr := c.numInstr + 1, pos := c.pos + 1, final := _ })
        (cfg := cfg) (E := events h) hcur).2⟩
    · trivial
  · rw [hf] at hfn; simp at hfn
  · rw [hf] at hfn; simp at hfn

/-- The messages in the demonstration are counted edits. -/
def demoMsg : Cfg (List String) Nat String := { demo with render := fun w => toString w.length }

def addHeaderM : DInstr := .edit fun v => ("X" :: v.world, true)

/-- Non-vacuity: scripts of these instructions meet the hypothesis. -/
example : ∀ i ∈ [addHeaderM, fileTo "A" true, askTest true, sendTo "joe" false], KeepsMsg demoMsg i := by
  intro i hi
  simp only [List.mem_cons, List.not_mem_nil, or_false] at hi
  rcases hi with rfl | rfl | rfl | rfl
  · intro v h
    simp at h
  · trivial
  · intro v h
    rfl
  · trivial

/-- A header is added and a copy filed: the copy has the header, but the implicit keep at the end
still refers to the original message (id 0). -/
theorem implicit_keep_outdated :
    ((play { demoMsg with globalFlags := fun _ => [] } (Ctx.new []) (start [addHeaderM, fileTo "A" true] :: List.replicate 3 .true)).map
      fun r => outputs r.1)
    = some [.event (.created 1 "1"), .event (.fileInto "A" [] 1), .event (.keep [] 0), .none] := by
  decide

end Sieve.Vm
