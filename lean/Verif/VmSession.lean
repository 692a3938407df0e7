import Verif.VmDisposition
import Mathlib.Data.List.Induction

/-!
# Sessions: splitting histories, playing them, and what happens once all scripts have ended
-/

namespace Sieve.Vm

variable {W V P : Type}

/-! ## Executable sessions -/

/-- `loop`, also collecting the states passed through. -/
def loopL (cfg : Cfg W V P) : Nat → Ctx W V P → Option (List (Label W V P) × Ctx W V P)
  | 0, _ => none
  | n + 1, c =>
    match step cfg c with
    | .ret o c' => some ([.pass c, .output o], c')
    | .cont c' => (loopL cfg n c').map fun r => (.pass c :: r.1, r.2)

/-- Call `run` once for each input. -/
def play (cfg : Cfg W V P) : Ctx W V P → List (Input W V P) →
    Option (List (Label W V P) × Ctx W V P)
  | c, [] => some ([], c)
  | c, i :: is =>
    match enter (applyInput cfg c i) with
    | .ret o c' => (play cfg c' is).map fun r => (.input i :: .output o :: r.1, r.2)
    | .cont c' =>
      match loopL cfg (fuel cfg c') c' with
      | none => none
      | some r => (play cfg r.2 is).map fun q => (.input i :: (r.1 ++ q.1), q.2)

theorem loopL_hist {cfg : Cfg W V P} {c0 : Ctx W V P} :
    ∀ (n : Nat) {h c r}, Hist cfg c0 h (.running c) → loopL cfg n c = some r →
      Hist cfg c0 (h ++ r.1) (.waiting r.2)
  | 0, h, c, r, _, hl => by simp [loopL] at hl
  | n + 1, h, c, r, hh, hl => by
    unfold loopL at hl
    split at hl
    · rename_i o1 c1 hs
      simp only [Option.some.injEq] at hl
      subst hl
      exact Hist.passRet hh hs
    · rename_i c1 hs
      rw [Option.map_eq_some_iff] at hl
      obtain ⟨r', hr', rfl⟩ := hl
      have := loopL_hist n (Hist.pass hh hs) hr'
      simpa using this

theorem play_hist {cfg : Cfg W V P} {c0 : Ctx W V P} :
    ∀ (is : List (Input W V P)) {h c r}, Hist cfg c0 h (.waiting c) → play cfg c is = some r →
      Hist cfg c0 (h ++ r.1) (.waiting r.2)
  | [], h, c, r, hh, hp => by
    simp only [play, Option.some.injEq] at hp
    subst hp
    simpa using hh
  | i :: is, h, c, r, hh, hp => by
    unfold play at hp
    split at hp
    · rename_i o c' he
      rw [Option.map_eq_some_iff] at hp
      obtain ⟨r', hr', rfl⟩ := hp
      have := play_hist is (Hist.feedRet hh he) hr'
      simpa using this
    · rename_i c' he
      split at hp
      · simp at hp
      · rename_i q hq
        rw [Option.map_eq_some_iff] at hp
        obtain ⟨r', hr', rfl⟩ := hp
        have := play_hist is (loopL_hist _ (Hist.feedGo hh he) hq) hr'
        simpa using this

/-! ## Splitting a history where `run` has returned -/

theorem hist_split {cfg : Cfg W V P} {c0 : Ctx W V P} {k m} (hh : Hist cfg c0 k m) :
    ∀ h1 o h2, k = h1 ++ .output o :: h2 →
      ∃ c1, Hist cfg c0 (h1 ++ [.output o]) (.waiting c1) ∧ Hist cfg c1 h2 m := by
  -- appending one label other than the splitting one
  have key : ∀ (h l h1 : List (Label W V P)) (o : Out P) (h2 : List (Label W V P)),
      h ++ l = h1 ++ .output o :: h2 →
      (∃ h2', h = h1 ++ .output o :: h2' ∧ h2 = h2' ++ l)
      ∨ (∃ l1 l2, l = l1 ++ .output o :: l2 ∧ h1 = h ++ l1 ∧ h2 = l2) := by
    intro h l h1 o h2 he
    rcases List.append_eq_append_iff.mp he with ⟨a, h1e, h2e⟩ | ⟨a, h1e, h2e⟩
    · right
      exact ⟨a, h2, h2e, h1e, rfl⟩
    · cases a with
      | nil =>
        right
        simp only [List.nil_append] at h2e
        exact ⟨[], h2, h2e.symm, by simpa using h1e.symm, rfl⟩
      | cons b bs =>
        left
        simp only [List.cons_append, List.cons.injEq] at h2e
        obtain ⟨rfl, rfl⟩ := h2e
        exact ⟨bs, h1e, rfl⟩
  induction hh with
  | start => intro h1 o h2 he; simp at he
  | @feedRet h c i o' c' hh he ih =>
    intro h1 o h2 hk
    rcases key _ _ _ _ _ hk with ⟨h2', rfl, rfl⟩ | ⟨l1, l2, hl, rfl, rfl⟩
    · obtain ⟨c1, ha, hb⟩ := ih h1 o h2' rfl
      exact ⟨c1, ha, Hist.feedRet hb he⟩
    · cases l1 with
      | nil => simp at hl
      | cons a as =>
        cases as with
        | nil =>
          simp only [List.cons_append, List.nil_append, List.cons.injEq] at hl
          obtain ⟨rfl, h3, rfl⟩ := hl
          injection h3 with h3
          subst h3
          exact ⟨c', by simpa using Hist.feedRet hh he, Hist.start⟩
        | cons b bs => simp at hl
  | @feedGo h c i c' hh he ih =>
    intro h1 o h2 hk
    rcases key _ _ _ _ _ hk with ⟨h2', rfl, rfl⟩ | ⟨l1, l2, hl, rfl, rfl⟩
    · obtain ⟨c1, ha, hb⟩ := ih h1 o h2' rfl
      exact ⟨c1, ha, Hist.feedGo hb he⟩
    · cases l1 <;> simp at hl
  | @pass h c c' hh he ih =>
    intro h1 o h2 hk
    rcases key _ _ _ _ _ hk with ⟨h2', rfl, rfl⟩ | ⟨l1, l2, hl, rfl, rfl⟩
    · obtain ⟨c1, ha, hb⟩ := ih h1 o h2' rfl
      exact ⟨c1, ha, Hist.pass hb he⟩
    · cases l1 <;> simp at hl
  | @passRet h c o' c' hh he ih =>
    intro h1 o h2 hk
    rcases key _ _ _ _ _ hk with ⟨h2', rfl, rfl⟩ | ⟨l1, l2, hl, rfl, rfl⟩
    · obtain ⟨c1, ha, hb⟩ := ih h1 o h2' rfl
      exact ⟨c1, ha, Hist.passRet hb he⟩
    · cases l1 with
      | nil => simp at hl
      | cons a as =>
        cases as with
        | nil =>
          simp only [List.cons_append, List.nil_append, List.cons.injEq] at hl
          obtain ⟨rfl, h3, rfl⟩ := hl
          injection h3 with h3
          subst h3
          exact ⟨c', by simpa using Hist.passRet hh he, Hist.start⟩
        | cons b bs => simp at hl

/-- A prefix of a history that follows the protocol follows it too. -/
theorem protocol_prefix {a b : List (Label W V P)} (h : Protocol (a ++ b)) (ha : a ≠ []) :
    Protocol a := by
  induction b using List.reverseRecOn with
  | nil => simpa using h
  | append_singleton b l ih =>
    rw [← List.append_assoc] at h
    rcases protocol_inv h with ⟨h0, _⟩ | ⟨h0, _⟩
    · exact absurd (List.append_eq_nil_iff.mp h0).1 ha
    · exact ih h0

/-- In a protocol history, what comes after an output other than `IncludeScript` contains a script
only after an `IncludeScript`. -/
theorem protocol_no_script {a b : List (Label W V P)} {n s} (h : Protocol (a ++ b)) (ha : a ≠ [])
    (hl : ∀ a' m o, a ≠ a' ++ [.output (.event (.includeScript m o))])
    (hb : .input (.script n s) ∈ b) : ∃ m o, .output (.event (.includeScript m o)) ∈ b := by
  obtain ⟨b1, b2, rfl⟩ := List.append_of_mem hb
  have h' : Protocol ((a ++ b1) ++ [.input (.script n s)]) := by
    refine protocol_prefix (b := b2) ?_ (by simp)
    simpa using h
  rcases protocol_inv h' with ⟨h0, _⟩ | ⟨_, h1⟩
  · exact absurd (List.append_eq_nil_iff.mp h0).1 ha
  · obtain ⟨p, m, o, he⟩ := h1 n s rfl
    cases b1 using List.reverseRecOn with
    | nil => exact absurd (by simpa using he) (hl p m o)
    | append_singleton b1 x =>
      rw [← List.append_assoc] at he
      have := (List.append_inj' he rfl).2
      simp only [List.cons.injEq, and_true] at this
      subst this
      exact ⟨m, o, by simp⟩

/-! ## After the last script -/

/-- `n` calls of `run` on a context without scripts and with the given queue return the queued
events and then `None`. -/
def drainOutputs (q : List (Event P)) (n : Nat) : List (Out P) :=
  (q.map Out.event ++ List.replicate n Out.none).take n

theorem drainOutputs_succ_nil (n : Nat) :
    drainOutputs ([] : List (Event P)) (n + 1) = .none :: drainOutputs [] n := by
  simp [drainOutputs, List.replicate_succ]

theorem idle {cfg : Cfg W V P} {c : Ctx W V P} {h m} (hh : Hist cfg c h m) (hs : c.stack = [])
    (hi : ∀ n s, .input (.script n s) ∉ h) :
    passes h = [] ∧ outputs h = drainOutputs c.queue (outputs h).length
      ∧ ∃ c', m = .waiting c' ∧ c'.stack = []
        ∧ c'.queue = c.queue.drop (outputs h).length := by
  induction hh with
  | start => exact ⟨rfl, by simp [drainOutputs], c, rfl, hs, by simp⟩
  | @feedRet h c1 i o c' hh he ih =>
    obtain ⟨h1, h2, c2, h3, h4, h5⟩ := ih (fun n s hm => hi n s (by simp [hm]))
    injection h3 with h3; subst h3
    have hstack : (applyInput cfg c1 i).stack = [] ∧ (applyInput cfg c1 i).queue = c1.queue := by
      cases i with
      | script n s => exact absurd (by simp) (hi n s)
      | _ => exact ⟨h4, rfl⟩
    have hout : outputs (h ++ [.input i, .output o]) = outputs h ++ [o] := by simp [outputs]
    refine ⟨by rw [passes_append, h1]; rfl, ?_, c', rfl, ?_⟩
    · rw [hout]
      unfold enter at he
      rw [hstack.2, h5] at he
      split at he
      · rename_i e q hq
        injection he with h6 h7
        subst h6
        have hlen : (outputs h).length < c.queue.length := by
          by_contra hc
          rw [List.drop_eq_nil_of_le (by omega)] at hq
          simp at hq
        have hget : c.queue[(outputs h).length]? = some e := by
          have := congrArg List.head? hq
          rw [List.head?_drop] at this
          simpa using this
        rw [List.length_append, List.length_singleton]
        unfold drainOutputs at h2 ⊢
        rw [List.take_append_of_le_length (by simp; omega), List.take_add_one]
        rw [List.take_append_of_le_length (by simp; omega)] at h2
        rw [← h2]
        simp [hget]
      · rename_i hq
        simp only [hstack.1, List.isEmpty_nil, if_true] at he
        injection he with h6 h7
        subst h6
        have hlen : c.queue.length ≤ (outputs h).length := by
          by_contra hc
          have := congrArg List.length hq
          simp at this
          omega
        rw [List.length_append, List.length_singleton]
        unfold drainOutputs at h2 ⊢
        rw [List.take_append, List.take_of_length_le (by simp; omega)] at h2 ⊢
        rw [h2]
        simp only [List.length_append, List.length_map, List.length_replicate,
          List.take_replicate, List.append_assoc, List.append_cancel_left_eq]
        rw [← List.replicate_succ']
        congr 1
        omega
    · unfold enter at he
      rw [hstack.2, h5] at he
      split at he
      · rename_i e q hq
        injection he with h6 h7
        subst h7
        refine ⟨hstack.1, ?_⟩
        rw [hout, List.length_append, List.length_singleton, ← List.drop_drop, hq]
        rfl
      · rename_i hq
        simp only [hstack.1, List.isEmpty_nil, if_true] at he
        injection he with h6 h7
        subst h7
        refine ⟨hstack.1, ?_⟩
        rw [hstack.2, h5, hout, List.length_append, List.length_singleton, ← List.drop_drop, hq]
        rfl
  | @feedGo h c1 i c' hh he ih =>
    exfalso
    obtain ⟨h1, h2, c2, h3, h4, h5⟩ := ih (fun n s hm => hi n s (by simp [hm]))
    injection h3 with h3; subst h3
    have hstack : (applyInput cfg c1 i).stack = [] := by
      cases i with
      | script n s => exact absurd (by simp) (hi n s)
      | _ => exact h4
    unfold enter at he
    split at he
    · simp at he
    · simp [hstack] at he
  | pass hh he ih =>
    exfalso
    obtain ⟨h1, h2, c2, h3, _⟩ := ih (fun n s hm => hi n s (by simp [hm]))
    simp at h3
  | passRet hh he ih =>
    exfalso
    obtain ⟨h1, h2, c2, h3, _⟩ := ih (fun n s hm => hi n s (by simp [hm]))
    simp at h3

theorem hist_append {cfg : Cfg W V P} {c0 c1 : Ctx W V P} {a b m}
    (ha : Hist cfg c0 a (.waiting c1)) (hb : Hist cfg c1 b m) : Hist cfg c0 (a ++ b) m := by
  induction hb with
  | start => simpa using ha
  | feedRet _ he ih => rw [← List.append_assoc]; exact Hist.feedRet ih he
  | feedGo _ he ih => rw [← List.append_assoc]; exact Hist.feedGo ih he
  | pass _ he ih => rw [← List.append_assoc]; exact Hist.pass ih he
  | passRet _ he ih => rw [← List.append_assoc]; exact Hist.passRet ih he

/-- The last pass before an output. -/
theorem hist_last_pass {cfg : Cfg W V P} {c0 c c1 : Ctx W V P} {h1 o}
    (ha : Hist cfg c0 (h1 ++ [.pass c, .output o]) (.waiting c1)) :
    Hist cfg c0 h1 (.running c) ∧ step cfg c = .ret o c1 := by
  generalize hk : h1 ++ [Label.pass c, .output o] = k at ha
  generalize hm : Mode.waiting c1 = m at ha
  cases ha with
  | start => simp at hk
  | @feedRet h c2 i o2 c3 _ _ =>
    have := (List.append_inj' hk rfl).2
    simp at this
  | feedGo => simp at hm
  | pass => simp at hm
  | @passRet h c2 o2 c3 hh he =>
    injection hm with hm; subst hm
    obtain ⟨rfl, h3⟩ := List.append_inj' hk rfl
    simp only [List.cons.injEq, and_true, Label.output.injEq, Label.pass.injEq] at h3
    obtain ⟨rfl, rfl⟩ := h3
    exact ⟨hh, he⟩

/-- A session: a fresh context, a host that follows the protocol, and scripts whose jumps stay
inside the script (which C08 shows of compiled scripts). -/
structure Session (cfg : Cfg W V P) (w : W) (h : List (Label W V P)) (c : Ctx W V P) : Prop where
  hist : Hist cfg (Ctx.new w) h (.waiting c)
  protocol : Protocol h
  host : ∀ s ∈ scriptsOf h, InRange s
  registered : ∀ n s, cfg.registered n = some s → InRange s

theorem Session.prefix {cfg : Cfg W V P} {w a b c c1} (S : Session cfg w (a ++ b) c)
    (ha : Hist cfg (Ctx.new w) a (.waiting c1)) (hne : a ≠ []) : Session cfg w a c1 :=
  ⟨ha, protocol_prefix S.protocol hne,
    fun s hs => S.host s (by rw [scriptsOf_append]; exact List.mem_append_left _ hs), S.registered⟩

theorem Session.phase {cfg : Cfg W V P} {w h c} (S : Session cfg w h c) :
    Phase cfg h (.waiting c) := by
  rcases Vm.phase S.registered S.hist S.host (fun _ => S.protocol) with ⟨h0, _⟩ | hp
  · exfalso
    have := S.protocol
    rw [h0] at this
    generalize hk : ([] : List (Label W V P)) = k at this
    cases this <;> simp at hk
  · exact hp

theorem first_script {h : List (Label W V P)} {n s} (hm : .input (.script n s) ∈ h) :
    ∃ b1 n s b2, h = b1 ++ .input (.script n s) :: b2 ∧ ∀ n s, .input (.script n s) ∉ b1 := by
  induction h with
  | nil => simp at hm
  | cons x xs ih =>
    by_cases hx : ∃ n s, x = .input (.script n s)
    · obtain ⟨n, s, rfl⟩ := hx
      exact ⟨[], n, s, xs, rfl, by simp⟩
    · have : .input (.script n s) ∈ xs := by
        rcases List.mem_cons.mp hm with h | h
        · exact absurd ⟨n, s, h.symm⟩ hx
        · exact h
      obtain ⟨b1, n', s', b2, rfl, h4⟩ := ih this
      refine ⟨x :: b1, n', s', b2, rfl, ?_⟩
      intro n s hh
      rcases List.mem_cons.mp hh with h | h
      · exact hx ⟨n, s, h.symm⟩
      · exact h4 n s h

/-- Once `run` has returned with no script left, no instruction is ever executed again; the host
gets the queued events and then `None`. -/
theorem Session.ended {cfg : Cfg W V P} {w h1 o h2 c c1}
    (S : Session cfg w (h1 ++ .output o :: h2) c)
    (ha : Hist cfg (Ctx.new w) (h1 ++ [.output o]) (.waiting c1))
    (hb : Hist cfg c1 h2 (.waiting c)) (hs : c1.stack = []) :
    Over cfg (verdict (acts cfg (h1 ++ [.output o])))
        (dispositions (events (h1 ++ [.output o]))) c1
      ∧ passes h2 = [] ∧ outputs h2 = drainOutputs c1.queue (outputs h2).length := by
  have S' : Session cfg w ((h1 ++ [.output o]) ++ h2) c := by simpa using S
  have over : ∀ {h c2}, Session cfg w h c2 → c2.stack = [] →
      Over cfg (verdict (acts cfg h)) (dispositions (events h)) c2
        ∧ ∀ h' n o, h ≠ h' ++ [.output (.event (.includeScript n o))] := by
    intro h c2 s hst
    rcases s.phase with ⟨hA, _⟩ | ⟨hO, hn, _⟩
    · exact absurd hst hA.stack
    · exact ⟨hO, hn⟩
  have hns : ∀ n s, .input (.script n s) ∉ h2 := by
    intro n s hm
    obtain ⟨b1, n', s', b2, rfl, hfirst⟩ := first_script hm
    have hP : Protocol (((h1 ++ [.output o]) ++ b1) ++ [.input (.script n' s')]) := by
      refine protocol_prefix (b := b2) ?_ (by simp)
      simpa using S.protocol
    rcases protocol_inv hP with ⟨h0, _⟩ | ⟨_, h3⟩
    · simp at h0
    · obtain ⟨p, m, q, he⟩ := h3 n' s' rfl
      -- the history up to there is a session without a script
      have hpre : ∃ c2, Hist cfg c1 b1 (.waiting c2) := by
        cases b1 using List.reverseRecOn with
        | nil => exact ⟨c1, Hist.start⟩
        | append_singleton b1 x =>
          rw [← List.append_assoc] at he
          have := (List.append_inj' he rfl).2
          simp only [List.cons.injEq, and_true] at this
          subst this
          obtain ⟨c2, h4, _⟩ := hist_split hb b1 (.event (.includeScript m q))
            (.input (.script n' s') :: b2) (by simp)
          exact ⟨c2, h4⟩
      obtain ⟨c2, h4⟩ := hpre
      have S2 : Session cfg w ((h1 ++ [.output o]) ++ b1) c2 :=
        Session.prefix (b := .input (.script n' s') :: b2) (by simpa using S)
          (hist_append ha h4) (by simp)
      obtain ⟨_, _, c3, h5, h6, _⟩ := idle h4 hs hfirst
      injection h5 with h5; subst h5
      exact (over S2 h6).2 p m q he
  obtain ⟨i1, i2, _⟩ := idle hb hs hns
  exact ⟨(over (S'.prefix ha (by simp)) hs).1, i1, i2⟩

end Sieve.Vm
