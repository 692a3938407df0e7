import Verif.VmProps

/-!
# Message ids and outgoing messages: specification and invariant (C13, C14)
-/

namespace Sieve.Vm

variable {W V P : Type}

/-! ## Specification -/

/-- The message an event refers to. -/
def refId : Event P → Option Nat
  | .keep _ i => some i
  | .fileInto _ _ i => some i
  | .send _ _ i => some i
  | _ => none

/-- The message an event announces. -/
def createdId : Event P → Option Nat
  | .created i _ => some i
  | _ => none

/-- The ids announced by a list of events. -/
def ids (l : List (Event P)) : List Nat := l.filterMap createdId

/-- Every reference is to the original message or to a message announced before; every announced id
is positive and larger than all ids announced before. -/
def Announced (l : List (Event P)) : Prop :=
  ∀ pre e post, l = pre ++ e :: post →
    (∀ i, refId e = some i → i = 0 ∨ i ∈ ids pre)
    ∧ (∀ i, createdId e = some i → 0 < i ∧ ∀ j ∈ ids pre, j < i)

/-- The number of messages sent by `redirect`. -/
def redirects (l : List (Event P)) : Nat :=
  l.countP fun | .send .redirect _ _ => true | _ => false

/-- The number of messages sent by `redirect` and `vacation`. -/
def outgoing (l : List (Event P)) : Nat :=
  l.countP fun | .send .redirect _ _ => true | .send .vacation _ _ => true | _ => false

/-! ## Lemmas on the specification -/

@[simp] theorem ids_append (a b : List (Event P)) : ids (a ++ b) = ids a ++ ids b := by
  simp [ids]

@[simp] theorem redirects_append (a b : List (Event P)) :
    redirects (a ++ b) = redirects a + redirects b := by simp [redirects]

@[simp] theorem outgoing_append (a b : List (Event P)) :
    outgoing (a ++ b) = outgoing a + outgoing b := by simp [outgoing]

theorem announced_snoc {l : List (Event P)} {e} (h : Announced l)
    (h1 : ∀ i, refId e = some i → i = 0 ∨ i ∈ ids l)
    (h2 : ∀ i, createdId e = some i → 0 < i ∧ ∀ j ∈ ids l, j < i) : Announced (l ++ [e]) := by
  intro pre e' post he
  cases post using List.reverseRecOn with
  | nil =>
    have := List.append_inj' he rfl
    obtain ⟨rfl, h3⟩ := this
    simp only [List.cons.injEq, and_true] at h3
    subst h3
    exact ⟨h1, h2⟩
  | append_singleton post x =>
    have he : l ++ [e] = (pre ++ e' :: post) ++ [x] := by simpa using he
    have := (List.append_inj' he rfl).1
    exact h pre e' post this

theorem announced_prefix {a b : List (Event P)} (h : Announced (a ++ b)) : Announced a := by
  intro pre e post he
  exact h pre e (post ++ b) (by simp [he])

/-! ## The invariant -/

/-- `E` are all events reported or queued so far.  `G` says that vacations are guarded. -/
structure Inv (cfg : Cfg W V P) (G : Prop) (E : List (Event P)) (c : Ctx W V P) : Prop where
  ann : Announced E
  le : ∀ i ∈ ids E, i ≤ c.lastId
  main : c.mainId = 0 ∨ c.mainId ∈ ids E
  fin : ∀ fl i, c.final = some (.keep fl i) → i = 0 ∨ i ∈ ids E
  finT : c.final = none ∨ c.final = some .discard ∨ ∃ fl i, c.final = some (.keep fl i)
  red : redirects E ≤ c.numRedirects ∧ c.numRedirects ≤ cfg.maxRedirects
  out : G → outgoing E ≤ c.numOut ∧ outgoing E ≤ cfg.maxOut

theorem Inv.ctx {cfg : Cfg W V P} {G E} {c c' : Ctx W V P} (h : Inv cfg G E c)
    (h1 : c'.lastId = c.lastId) (h2 : c'.mainId = c.mainId) (h3 : c'.final = c.final)
    (h4 : c'.numRedirects = c.numRedirects) (h5 : c'.numOut = c.numOut) : Inv cfg G E c' :=
  ⟨h.ann, by rw [h1]; exact h.le, by rw [h2]; exact h.main, by rw [h3]; exact h.fin,
    by rw [h3]; exact h.finT, by rw [h4]; exact h.red, by rw [h5]; exact h.out⟩

/-- An event that neither announces nor refers to a message. -/
def Plain : Event P → Prop
  | .query _ => True
  | .function _ => True
  | .reject _ => True
  | .includeScript _ _ => True
  | .setEnvelope _ => True
  | .notify _ => True
  | .discard => True
  | _ => False

theorem Inv.plain {cfg : Cfg W V P} {G E} {c : Ctx W V P} (h : Inv cfg G E c) {e} (he : Plain e) :
    Inv cfg G (E ++ [e]) c := by
  have h1 : refId e = none := by cases e <;> simp_all [refId, Plain]
  have h2 : createdId e = none := by cases e <;> simp_all [createdId, Plain]
  have h3 : ids [e] = [] := by simp [ids, h2]
  have h4 : redirects [e] = 0 ∧ outgoing [e] = 0 := by
    cases e <;> first | exact absurd he id | exact ⟨rfl, rfl⟩
  refine ⟨announced_snoc h.ann (by simp [h1]) (by simp [h2]), ?_, ?_, ?_, h.finT, ?_, ?_⟩
  · rw [ids_append, h3]; simpa using h.le
  · rw [ids_append, h3]; simpa using h.main
  · rw [ids_append, h3]; simpa using h.fin
  · rw [redirects_append, h4.1]; simpa using h.red
  · rw [outgoing_append, h4.2]; simpa using h.out

theorem Inv.plains {cfg : Cfg W V P} {G} {c : Ctx W V P} : ∀ {l : List (Event P)} {E},
    Inv cfg G E c → (∀ e ∈ l, Plain e) → Inv cfg G (E ++ l) c
  | [], E, h, _ => by simpa using h
  | e :: l, E, h, hl => by
    have := Inv.plains (l := l) (h.plain (hl e (by simp))) (fun x hx => hl x (by simp [hx]))
    simpa using this

/-- Announcing a fresh message (not the main one). -/
theorem Inv.create {cfg : Cfg W V P} {G E} {c : Ctx W V P} (h : Inv cfg G E c) (p : P) :
    Inv cfg G (E ++ [.created (c.lastId + 1) p]) { c with lastId := c.lastId + 1 } := by
  have h3 : ids ([.created (c.lastId + 1) p] : List (Event P)) = [c.lastId + 1] := rfl
  refine ⟨announced_snoc h.ann (by simp [refId]) ?_, ?_, ?_, ?_, h.finT, ?_, ?_⟩
  · intro i hi
    simp only [createdId, Option.some.injEq] at hi
    subst hi
    exact ⟨by omega, fun j hj => by have := h.le j hj; omega⟩
  · rw [ids_append, h3]
    intro i hi
    simp only [List.mem_append, List.mem_singleton] at hi
    rcases hi with hi | rfl
    · have := h.le i hi; show i ≤ c.lastId + 1; omega
    · exact le_refl _
  · rw [ids_append]
    rcases h.main with h | h
    · exact Or.inl h
    · exact Or.inr (by simp [h])
  · rw [ids_append]
    intro fl i hi
    rcases h.fin fl i hi with h | h
    · exact Or.inl h
    · exact Or.inr (by simp [h])
  · rw [redirects_append]; exact h.red
  · rw [outgoing_append]; exact h.out

/-- Filing a known message. -/
theorem Inv.file {cfg : Cfg W V P} {G E} {c : Ctx W V P} (h : Inv cfg G E c) {p fl i}
    (hi : i = 0 ∨ i ∈ ids E) : Inv cfg G (E ++ [.fileInto p fl i]) c := by
  refine ⟨announced_snoc h.ann ?_ (by simp [createdId]), ?_, ?_, ?_, h.finT, ?_, ?_⟩
  · intro j hj
    simp only [refId, Option.some.injEq] at hj
    subst hj; exact hi
  · rw [ids_append]; simpa [ids, createdId] using h.le
  · rw [ids_append]; simpa [ids, createdId] using h.main
  · rw [ids_append]; simpa [ids, createdId] using h.fin
  · rw [redirects_append]; exact h.red
  · rw [outgoing_append]; exact h.out

/-- Sending a known message. -/
theorem Inv.send {cfg : Cfg W V P} {G E} {c : Ctx W V P} (h : Inv cfg G E c) {k p i}
    (hi : i = 0 ∨ i ∈ ids E)
    (hred : k = .redirect → c.numRedirects < cfg.maxRedirects)
    (hout : k ≠ .notify → G → c.numOut < cfg.maxOut) :
    Inv cfg G (E ++ [.send k p i])
      { c with
        numRedirects := c.numRedirects + (if k = .redirect then 1 else 0)
        numOut := c.numOut + (if k = .notify then 0 else 1) } := by
  refine ⟨announced_snoc h.ann ?_ (by simp [createdId]), ?_, ?_, ?_, h.finT, ?_, ?_⟩
  · intro j hj
    simp only [refId, Option.some.injEq] at hj
    subst hj; exact hi
  · rw [ids_append]; simpa [ids, createdId] using h.le
  · rw [ids_append]; simpa [ids, createdId] using h.main
  · rw [ids_append]; simpa [ids, createdId] using h.fin
  · rw [redirects_append]
    have := h.red
    cases k with
    | redirect =>
      have := hred rfl
      have h1 : redirects ([.send .redirect p i] : List (Event P)) = 1 := rfl
      rw [h1]
      simp only [if_true]
      omega
    | vacation =>
      have h1 : redirects ([.send .vacation p i] : List (Event P)) = 0 := rfl
      rw [h1]
      simpa using this
    | notify =>
      have h1 : redirects ([.send .notify p i] : List (Event P)) = 0 := rfl
      rw [h1]
      simpa using this
  · intro hG
    have := h.out hG
    rw [outgoing_append]
    cases k with
    | redirect =>
      have := hout (by simp) hG
      have h1 : outgoing ([.send .redirect p i] : List (Event P)) = 1 := rfl
      rw [h1]
      simp
      omega
    | vacation =>
      have := hout (by simp) hG
      have h1 : outgoing ([.send .vacation p i] : List (Event P)) = 1 := rfl
      rw [h1]
      simp
      omega
    | notify =>
      have h1 : outgoing ([.send .notify p i] : List (Event P)) = 0 := rfl
      rw [h1]
      simpa using this

/-- `build_message_id`. -/
theorem Inv.build {cfg : Cfg W V P} {G E} {c : Ctx W V P} (h : Inv cfg G E c) :
    Inv cfg G (E ++ (buildMessageId cfg c).1) (buildMessageId cfg c).2 := by
  unfold buildMessageId
  split
  · have := h.create (cfg.render c.world)
    exact ⟨this.ann, this.le, Or.inr (by simp [ids, createdId]), this.fin, this.finT, this.red, this.out⟩
  · simpa using h

/-- Changing the final event. -/
theorem Inv.setFinal {cfg : Cfg W V P} {G E} {c : Ctx W V P} (h : Inv cfg G E c) (f : Option (Event P))
    (h1 : f = none ∨ f = some .discard ∨ ∃ fl i, f = some (.keep fl i) ∧ (i = 0 ∨ i ∈ ids E)) :
    Inv cfg G E { c with final := f } := by
  refine ⟨h.ann, h.le, h.main, ?_, ?_, h.red, h.out⟩
  · intro fl i hf
    rcases h1 with h1 | h1 | ⟨fl', i', h1, h2⟩
    · simp only [h1] at hf; simp at hf
    · simp only [h1] at hf; simp at hf
    · simp only [h1, Option.some.injEq, Event.keep.injEq] at hf
      obtain ⟨rfl, rfl⟩ := hf
      exact h2
  · rcases h1 with h1 | h1 | ⟨fl', i', h1, h2⟩
    · exact Or.inl h1
    · exact Or.inr (Or.inl h1)
    · exact Or.inr (Or.inr ⟨fl', i', h1⟩)

/-- The final keep. -/
theorem Inv.keep {cfg : Cfg W V P} {G E} {c : Ctx W V P} (h : Inv cfg G E c) {fl i}
    (hi : i = 0 ∨ i ∈ ids E) : Inv cfg G (E ++ [.keep fl i]) c := by
  refine ⟨announced_snoc h.ann ?_ (by simp [createdId]), ?_, ?_, ?_, h.finT, ?_, ?_⟩
  · intro j hj
    simp only [refId, Option.some.injEq] at hj
    subst hj; exact hi
  · rw [ids_append]; simpa [ids, createdId] using h.le
  · rw [ids_append]; simpa [ids, createdId] using h.main
  · rw [ids_append]; simpa [ids, createdId] using h.fin
  · rw [redirects_append]; exact h.red
  · rw [outgoing_append]; exact h.out

theorem Inv.settle {cfg : Cfg W V P} {G E} {c : Ctx W V P} (h : Inv cfg G E c) :
    Inv cfg G (E ++ (settle cfg c).1) (settle cfg c).2 := by
  rcases h.finT with hf | hf | ⟨fl, i, hf⟩
  · unfold Vm.settle
    rw [hf]
    simpa using h
  · unfold Vm.settle
    rw [hf]
    exact (h.plain (e := .discard) trivial).setFinal none (Or.inl rfl)
  · unfold Vm.settle
    rw [hf]
    simp only
    have h1 := h.setFinal none (Or.inl rfl)
    have h2 := h1.build
    split
    · rename_i hb
      rw [hb] at h2
      have h2 : Inv cfg G E (buildMessageId cfg { c with final := none }).2 := by simpa using h2
      exact h2.keep (h.fin fl i hf)
    · rename_i hb
      rw [← List.append_assoc]
      exact h2.keep h2.main

/-- Only `SetEnvelope` events are waiting while a script runs. -/
def Settled (c : Ctx W V P) : Prop := ∀ e ∈ c.queue, ∃ p, e = .setEnvelope p

theorem Settled.plain {c : Ctx W V P} (h : Settled c) : ∀ e ∈ c.queue, Plain e := by
  intro e he
  obtain ⟨p, rfl⟩ := h e he
  trivial

/-- What a pass leads to. -/
def Next (cfg : Cfg W V P) (G : Prop) (E : List (Event P)) : Step W V P → Prop
  | .cont c => Inv cfg G E c ∧ Settled c
  | .ret o c => Inv cfg G (E ++ evs o ++ c.queue) c

theorem next_drain {cfg : Cfg W V P} {G E} {c : Ctx W V P} (h : Inv cfg G (E ++ c.queue) c) :
    Next cfg G E (drain c) := by
  unfold drain
  split
  · rename_i hq
    rw [hq] at h
    exact ⟨by simpa using h, by simp [Settled, hq]⟩
  · rename_i e q hq
    rw [hq] at h
    have : Inv cfg G (E ++ [e] ++ q) { c with queue := q } := by
      have h' := h.ctx (c' := { c with queue := q }) rfl rfl rfl rfl rfl
      simpa using h'
    exact this

theorem next_finish {cfg : Cfg W V P} {G E} {c : Ctx W V P} (h : Inv cfg G E c) (hs : Settled c) :
    Next cfg G E (finish cfg c) := by
  have h1 := h.settle
  have h2 := (settle_spec cfg c).2.2.1
  unfold finish
  split
  · rename_i c' he
    rw [he] at h1 h2
    have : Inv cfg G (E ++ c'.queue) c' := by
      simp only at h1 h2
      rw [h2]
      exact Inv.plains (by simpa using h1) hs.plain
    simpa [Next, evs] using this
  · rename_i e c' he
    rw [he] at h1 h2
    simp only at h1 h2
    show Inv cfg G (E ++ [e] ++ c'.queue) c'
    rw [h2]
    exact Inv.plains h1 hs.plain
  · rename_i e es c' _ he
    rw [he] at h1
    simp only at h1
    show Inv cfg G (E ++ [e] ++ es) { c' with queue := es }
    simpa using h1.ctx (c' := { c' with queue := es }) rfl rfl rfl rfl rfl

theorem next_finishLoop {cfg : Cfg W V P} {G E} {c : Ctx W V P} {er} (h : Inv cfg G E c)
    (hs : Settled c) : Next cfg G E (.ret (.error er) (finishLoop cfg c)) := by
  have h0 : Inv cfg G E { c with stack := [] } := h.ctx rfl rfl rfl rfl rfl
  have h1 := h0.settle
  have h2 := (settle_spec cfg { c with stack := [] }).2.2.1
  show Inv cfg G (E ++ [] ++ (finishLoop cfg c).queue) (finishLoop cfg c)
  rw [List.append_nil]
  unfold finishLoop
  split
  · rename_i c' he
    rw [he] at h1 h2
    simp only at h1 h2
    rw [h2]
    exact Inv.plains (by simpa using h1) hs.plain
  · rename_i es c' _ he
    rw [he] at h1
    exact h1.ctx rfl rfl rfl rfl rfl

theorem next_leave {cfg : Cfg W V P} {G E} {c : Ctx W V P} (h : Inv cfg G E c) (hs : Settled c) :
    Next cfg G E (leave cfg c) := by
  unfold leave
  split
  · exact next_finish h hs
  · simp only
    split
    · exact next_finish (h.ctx rfl rfl rfl rfl rfl) hs
    · exact ⟨h.ctx rfl rfl rfl rfl rfl, hs⟩

theorem next_setTarget {cfg : Cfg W V P} {G E} {c : Ctx W V P} (h : Inv cfg G E c) (hs : Settled c)
    (t v) : Inv cfg G E (setTarget c t v) ∧ Settled (setTarget c t v) := by
  cases t with
  | «local» i => exact ⟨h.ctx rfl rfl rfl rfl rfl, hs⟩
  | global f => exact ⟨h.ctx rfl rfl rfl rfl rfl, hs⟩
  | envelope f =>
    refine ⟨h.ctx rfl rfl rfl rfl rfl, ?_⟩
    intro e he
    simp only [setTarget, List.mem_singleton] at he
    exact ⟨_, he⟩
  | other => exact ⟨h, hs⟩

theorem popParts_ids : ∀ (n : Nat) (c : Ctx W V P),
    (popParts n c).lastId = c.lastId ∧ (popParts n c).mainId = c.mainId
      ∧ (popParts n c).numRedirects = c.numRedirects ∧ (popParts n c).numOut = c.numOut
  | 0, c => ⟨rfl, rfl, rfl, rfl⟩
  | n + 1, c => by
    unfold popParts
    split
    · exact ⟨rfl, rfl, rfl, rfl⟩
    · exact popParts_ids n { c with part := ‹Nat›, partIter := ‹List Nat›, partStack := ‹_› }

theorem Inv.fcc {cfg : Cfg W V P} {G E} {c d : Ctx W V P} (h : Inv cfg G E c) {f i}
    (hi : i ∈ ids E) : Inv cfg G (E ++ fccEvents d f i) c := by
  unfold fccEvents
  split
  · simpa using h
  · exact h.file (Or.inr hi)

theorem next_exec {cfg : Cfg W V P} {G E} {c : Ctx W V P} (h : Inv cfg G E c) (hs : Settled c)
    (i : Instr W V P) (hv : G → ∀ f g, i = .vacation f g → c.numOut < cfg.maxOut) :
    Next cfg G E (exec cfg c i) := by
  have ctx : ∀ c', c'.lastId = c.lastId → c'.mainId = c.mainId → c'.final = c.final →
      c'.numRedirects = c.numRedirects → c'.numOut = c.numOut → c'.queue = c.queue →
      Inv cfg G E c' ∧ Settled c' := by
    intro c' h1 h2 h3 h4 h5 h6
    exact ⟨h.ctx h1 h2 h3 h4 h5, by unfold Settled; rw [h6]; exact hs⟩
  have ask : ∀ c' e, Plain e → c'.lastId = c.lastId → c'.mainId = c.mainId → c'.final = c.final →
      c'.numRedirects = c.numRedirects → c'.numOut = c.numOut → c'.queue = c.queue →
      Next cfg G E (.ret (.event e) c') := by
    intro c' e he h1 h2 h3 h4 h5 h6
    show Inv cfg G (E ++ [e] ++ c'.queue) c'
    rw [h6]
    exact Inv.plains ((h.ctx h1 h2 h3 h4 h5).plain he) hs.plain
  cases i with
  | jz t => simp only [exec]; split <;> exact ctx _ rfl rfl rfl rfl rfl rfl
  | jnz t => simp only [exec]; split <;> exact ctx _ rfl rfl rfl rfl rfl rfl
  | jmp t => exact ctx _ rfl rfl rfl rfl rfl rfl
  | test f =>
    simp only [exec]
    split
    · exact ctx _ rfl rfl rfl rfl rfl rfl
    · exact ask _ _ trivial rfl rfl rfl rfl rfl rfl
    · have := ctx { c with world := (f c.view).world, matchv := (f c.view).matchv,
                           hasChanges := c.hasChanges || (f c.view).changed } rfl rfl rfl rfl rfl rfl
      exact next_finishLoop this.1 this.2
  | eval f =>
    simp only [exec]
    split
    · exact ctx _ rfl rfl rfl rfl rfl rfl
    · exact ask _ _ trivial rfl rfl rfl rfl rfl rfl
  | clear a b m => exact ctx _ rfl rfl rfl rfl rfl rfl
  | keep fl =>
    simp only [exec]
    have hb := h.build
    have hfin := hb.setFinal (some (.keep (fl c.view) (buildMessageId cfg c).2.mainId))
      (Or.inr (Or.inr ⟨_, _, rfl, hb.main⟩))
    have hq : (buildMessageId cfg c).2.queue = c.queue := build_queue cfg c
    split
    · rename_i he
      rw [he] at hfin
      exact ⟨by simpa using hfin, by unfold Settled; simp only; rw [hq]; exact hs⟩
    · rename_i e l he
      have hl : l = [] := by
        rcases build_short cfg c with h | ⟨x, h⟩ <;> rw [he] at h <;> simp_all
      subst hl
      rw [he] at hfin
      show Inv cfg G (E ++ [e] ++ (buildMessageId cfg c).2.queue) _
      exact Inv.plains hfin (by rw [hq]; exact hs.plain)
  | fileInto copy dest flags =>
    apply next_drain
    have hb := h.build
    have h1 := hb.file (p := dest c.view) (fl := flags c.view) hb.main
    rw [List.append_assoc] at h1
    refine ⟨h1.ann, h1.le, h1.main, ?_, ?_, h1.red, h1.out⟩
    · intro fl i hf
      simp only [execFileInto] at hf
      split at hf
      · rename_i f fs j he
        simp only [Option.some.injEq, Event.keep.injEq] at hf
        obtain ⟨rfl, rfl⟩ := hf
        exact h1.fin _ _ he
      · split at hf
        · exact h1.fin _ _ hf
        · simp at hf
    · simp only [execFileInto]
      split
      · exact Or.inr (Or.inr ⟨_, _, rfl⟩)
      · split
        · exact h1.finT
        · exact Or.inl rfl
  | redirect list copy addr =>
    apply next_drain
    unfold execRedirect
    have stay : Inv cfg G (E ++ c.queue) c := Inv.plains h hs.plain
    split
    · exact stay
    · rename_i a _
      split
      · rename_i hl
        split
        · exact stay
        · have h0 : Inv cfg G E { c with final := match c.final with
            | some (.keep fs i) => if copy then some (.keep fs i) else none
            | e => e } := by
            apply h.setFinal
            rcases h.finT with hf | hf | ⟨fl, i, hf⟩
            · rw [hf]; exact Or.inl rfl
            · rw [hf]; exact Or.inr (Or.inl rfl)
            · rw [hf]
              simp only
              split
              · exact Or.inr (Or.inr ⟨fl, i, rfl, h.fin fl i hf⟩)
              · exact Or.inl rfl
          have hb := h0.build
          have h1 := hb.send (k := .redirect) (p := a) hb.main
            (fun _ => by rw [build_numRedirects]; exact hl.1)
            (fun _ _ => by rw [build_numOut]; exact hl.2.1)
          rw [List.append_assoc] at h1
          exact ⟨h1.ann, h1.le, h1.main, h1.fin, h1.finT, h1.red, h1.out⟩
      · exact stay
  | discard =>
    exact ⟨h.setFinal _ (Or.inr (Or.inl rfl)), hs⟩
  | stop => exact next_finish (h.ctx rfl rfl rfl rfl rfl) hs
  | reject f =>
    show Inv cfg G (E ++ [_] ++ c.queue) _
    exact Inv.plains ((h.setFinal none (Or.inl rfl)).plain trivial) hs.plain
  | forEveryPart t =>
    simp only [exec]
    split
    · exact ctx _ rfl rfl rfl rfl rfl rfl
    · split <;> exact ctx _ rfl rfl rfl rfl rfl rfl
  | forEveryPartPush => exact ctx _ rfl rfl rfl rfl rfl rfl
  | forEveryPartPop n =>
    have h1 := popParts_ids n c
    have h2 := popParts_final n c
    exact ctx _ h1.1 h1.2.1 h2.1 h1.2.2.1 h1.2.2.2 h2.2
  | «while» f t =>
    simp only [exec]
    split
    · split <;> exact ctx _ rfl rfl rfl rfl rfl rfl
    · exact ask _ _ trivial rfl rfl rfl rfl rfl rfl
  | let_ t f =>
    simp only [exec]
    split
    · rename_i v w _
      have h1 := ctx { c with world := w } rfl rfl rfl rfl rfl rfl
      exact next_setTarget h1.1 h1.2 t v
    · exact ask _ _ trivial rfl rfl rfl rfl rfl rfl
  | edit f => exact ctx _ rfl rfl rfl rfl rfl rfl
  | assign t f =>
    apply next_drain
    obtain ⟨h1, h2⟩ := next_setTarget h hs t (f c.view)
    exact Inv.plains h1 h2.plain
  | editFlags t f => exact next_setTarget h hs t (f c.view)
  | notify f g =>
    apply next_drain
    unfold execNotify
    have stay : Inv cfg G (E ++ c.queue) c := Inv.plains h hs.plain
    split
    · exact stay
    · rename_i r _
      split
      · exact stay
      · rename_i rcpt msg _ _
        have h1 := h.create msg
        have hmem : c.lastId + 1 ∈ ids (E ++ [.created (c.lastId + 1) msg]) := by
          simp [ids, createdId]
        have h2 := h1.send (k := .notify) (p := rcpt) (Or.inr hmem) (by simp) (by simp)
        have h3 := h2.fcc (d := c) (f := g) (i := c.lastId + 1) (by rw [ids_append]; exact List.mem_append_left _ hmem)
        rw [List.append_assoc, List.append_assoc] at h3
        exact ⟨h3.ann, h3.le, h3.main, h3.fin, h3.finT, h3.red, h3.out⟩
      · split
        · have h1 := h.plain (e := .notify r.event) trivial
          exact ⟨h1.ann, h1.le, h1.main, h1.fin, h1.finT, h1.red, fun hG => by
            have := h1.out hG; simp only at this ⊢; omega⟩
        · rename_i k
          have h1 := h.create r.plain
          have h2 := h1.plain (e := .notify r.event) trivial
          have h3 := h2.file (p := (k c.view).1) (fl := (k c.view).2) (i := c.lastId + 1)
            (Or.inr (by simp [ids, createdId]))
          rw [List.append_assoc, List.append_assoc] at h3
          exact ⟨h3.ann, h3.le, h3.main, h3.fin, h3.finT, h3.red, fun hG => by
            have := h3.out hG; simp only [List.singleton_append] at this ⊢; omega⟩
  | vacation f g =>
    show Next cfg G E (drain (execVacation c f g))
    apply next_drain
    have h1 := h.create (f c.view).1
    have hmem : c.lastId + 1 ∈ ids (E ++ [.created (c.lastId + 1) (f c.view).1]) := by
      simp [ids, createdId]
    have h2 := h1.send (k := .vacation) (p := (f c.view).2) (Or.inr hmem) (by simp)
      (fun _ hG => hv hG f g rfl)
    have h3 := h2.fcc (d := c) (f := g) (i := c.lastId + 1) (by rw [ids_append]; exact List.mem_append_left _ hmem)
    rw [List.append_assoc, List.append_assoc] at h3
    exact ⟨h3.ann, h3.le, h3.main, h3.fin, h3.finT, h3.red, h3.out⟩
  | «include» once opt name =>
    simp only [exec]
    split
    · exact ctx _ rfl rfl rfl rfl rfl rfl
    · exact ask _ _ trivial rfl rfl rfl rfl rfl rfl
    · exact next_finishLoop h hs
    · exact ⟨h, hs⟩
  | return_ => exact next_leave h hs
  | require caps =>
    simp only [exec]
    split
    · exact ⟨h, hs⟩
    · exact next_finishLoop h hs
  | error f => exact next_finishLoop h hs
  | invalid p => exact next_finishLoop h hs

theorem next_step {cfg : Cfg W V P} {G E} {c : Ctx W V P} (h : Inv cfg G E c) (hs : Settled c)
    (hv : G → ∀ f g, fetch c = some (.vacation f g) → c.numOut < cfg.maxOut) :
    Next cfg G E (step cfg c) := by
  cases hst : c.stack with
  | nil =>
    simp only [step, hst]
    show Inv cfg G (E ++ [] ++ c.queue) c
    rw [List.append_nil]
    exact Inv.plains h hs.plain
  | cons fr rest =>
    rcases step_cases (cfg := cfg) hst with ⟨_, i, hi, hfe, ⟨hl', e⟩ | ⟨hl', e⟩⟩ | ⟨_, _, e⟩ | ⟨_, _, e⟩
    · rw [e]
      exact next_finishLoop (c := { c with numInstr := c.numInstr + 1 }) (h.ctx rfl rfl rfl rfl rfl) hs
    · rw [e]
      refine next_exec (c := { c with numInstr := c.numInstr + 1, pos := c.pos + 1 })
        (h.ctx rfl rfl rfl rfl rfl) hs i ?_
      rintro hG f g rfl
      exact hv hG f g hfe
    · rw [e]
      exact next_leave h hs
    · rw [e]
      show Inv cfg G (E ++ [] ++ c.queue) c
      rw [List.append_nil]
      exact Inv.plains h hs.plain

/-- The invariant in a mode. -/
def InvM (cfg : Cfg W V P) (G : Prop) (h : List (Label W V P)) : Mode W V P → Prop
  | .running c => Inv cfg G (events h) c ∧ Settled c
  | .waiting c => Inv cfg G (events h ++ c.queue) c

theorem events_output (o : Out P) (l : Label W V P) (hl : events [l] = []) :
    events [l, .output o] = evs o := by
  rw [show [l, Label.output o] = [l] ++ [.output o] from rfl, events_append, hl]
  cases o <;> rfl

theorem inv_new (cfg : Cfg W V P) (G : Prop) (w : W) : Inv cfg G [] (Ctx.new w) := by
  refine ⟨?_, ?_, Or.inl rfl, ?_, Or.inr (Or.inr ⟨[], 0, rfl⟩), ⟨by simp [redirects], by simp [Ctx.new]⟩,
    fun _ => ⟨by simp [outgoing], by simp [outgoing]⟩⟩
  · intro pre e post he; simp at he
  · simp [ids]
  · intro fl i h
    simp only [Ctx.new, Option.some.injEq, Event.keep.injEq] at h
    exact Or.inl h.2.symm

/-- The invariant holds throughout every session, if (for the part on vacations) every vacation is
executed below the limit. -/
theorem invariant {cfg : Cfg W V P} {G : Prop} {w : W} {h m} (hh : Hist cfg (Ctx.new w) h m)
    (hv : G → ∀ h' c f g, h' <+: h → Hist cfg (Ctx.new w) h' (.running c) →
      fetch c = some (.vacation f g) → c.numOut < cfg.maxOut) : InvM cfg G h m := by
  have inp : ∀ (c : Ctx W V P) i, (applyInput cfg c i).lastId = c.lastId
      ∧ (applyInput cfg c i).mainId = c.mainId ∧ (applyInput cfg c i).final = c.final
      ∧ (applyInput cfg c i).numRedirects = c.numRedirects
      ∧ (applyInput cfg c i).numOut = c.numOut ∧ (applyInput cfg c i).queue = c.queue := by
    intro c i
    cases i with
    | script n s => simp only [applyInput]; split <;> exact ⟨rfl, rfl, rfl, rfl, rfl, rfl⟩
    | _ => exact ⟨rfl, rfl, rfl, rfl, rfl, rfl⟩
  have sub : ∀ (a b : List (Label W V P)), (G → ∀ h' c f g, h' <+: a ++ b →
      Hist cfg (Ctx.new w) h' (.running c) → fetch c = some (.vacation f g) → c.numOut < cfg.maxOut) →
      (G → ∀ h' c f g, h' <+: a → Hist cfg (Ctx.new w) h' (.running c) →
        fetch c = some (.vacation f g) → c.numOut < cfg.maxOut) :=
    fun a b h hG h' c f g hp => h hG h' c f g (hp.trans (List.prefix_append a b))
  induction hh with
  | start => exact inv_new cfg G w
  | @feedRet h c i o c' hh he ih =>
    have ih := ih (sub _ _ hv)
    obtain ⟨e1, e2, e3, e4, e5, e6⟩ := inp c i
    have ih : Inv cfg G (events h ++ (applyInput cfg c i).queue) (applyInput cfg c i) := by
      rw [e6]; exact Inv.ctx ih e1 e2 e3 e4 e5
    simp only [InvM]
    rw [events_append, events_output o _ rfl]
    rcases enter_ret he with ⟨ev, q, hq, rfl, rfl⟩ | ⟨hq, _, rfl, rfl⟩
    · rw [hq] at ih
      have := ih.ctx (c' := { applyInput cfg c i with queue := q }) rfl rfl rfl rfl rfl
      simpa [evs] using this
    · simpa [evs] using ih
  | @feedGo h c i c' hh he ih =>
    have ih := ih (sub _ _ hv)
    obtain ⟨e1, e2, e3, e4, e5, e6⟩ := inp c i
    obtain ⟨rfl, hq, _⟩ := enter_cont he
    have ih : Inv cfg G (events h ++ (applyInput cfg c i).queue) (applyInput cfg c i) := by
      rw [e6]; exact Inv.ctx ih e1 e2 e3 e4 e5
    rw [hq] at ih
    refine ⟨?_, by simp [Settled, hq]⟩
    rw [events_append]
    simpa [events] using ih
  | @pass h c c' hh he ih =>
    have ih := ih (sub _ _ hv)
    have := next_step ih.1 ih.2 (fun hG f g hf => hv hG h c f g (List.prefix_append _ _) hh hf)
    rw [he] at this
    simp only [InvM]
    rw [events_append, show events [Label.pass c] = [] from rfl, List.append_nil]
    exact this
  | @passRet h c o c' hh he ih =>
    have ih := ih (sub _ _ hv)
    have := next_step ih.1 ih.2 (fun hG f g hf => hv hG h c f g (List.prefix_append _ _) hh hf)
    rw [he] at this
    simp only [InvM]
    rw [events_append, events_output o _ rfl]
    exact this

end Sieve.Vm
