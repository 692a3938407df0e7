import Verif.BaseSpec
import Mathlib.Data.List.Induction

/-! # Lemmas for C113 -/

namespace Sieve.Base

open Sieve.Vm Sieve.Compile Sieve.Source

variable {W V P A T E : Type} {cfg : Cfg W V P}

/-! ## The final event -/

/-- What an action makes of `final_event`, the number of the message being `m`. -/
def finStep (m : Nat) (f : Option (Event P)) : Action P → Option (Event P)
  | .keep fl => some (.keep fl m)
  | .discard => some .discard
  | .fileinto copy _ _ =>
    match f with
    | some (.keep (g :: gs) i) => some (.keep (g :: gs) i)
    | e => if copy then e else none
  | .redirect copy _ =>
    match f with
    | some (.keep fs i) => if copy then some (.keep fs i) else none
    | e => e
  | .reject _ => none
  | .ask _ => f
  | .mail _ _ _ _ _ => f
  | .notify _ _ => f
  | .version _ _ => f

def fin (acts : List (Action P)) : Option (Event P) :=
  (acts.foldl (fun x a => (curStep x.1 a, finStep x.1 x.2 a)) (0, some (.keep [] 0))).2

theorem current_append (acts : List (Action P)) (a : Action P) : current (acts ++ [a]) = curStep (current acts) a := by
  simp [current]

theorem fin_current (acts : List (Action P)) :
    (acts.foldl (fun x a => (curStep x.1 a, finStep x.1 x.2 a)) (0, some (.keep [] 0))).1 = current acts := by
  induction acts using List.reverseRecOn with
  | nil => rfl
  | append_singleton acts x ih => rw [current_append, List.foldl_append, ← ih]; rfl

theorem fin_append (acts : List (Action P)) (a : Action P) : fin (acts ++ [a]) = finStep (current acts) (fin acts) a := by
  rw [← fin_current]
  simp [fin]

theorem sentFrom_append (m : Nat) (acts acts' : List (Action P)) :
    sentFrom m (acts ++ acts') = sentFrom m acts ++ sentFrom (acts.foldl curStep m) acts' := by
  induction acts generalizing m with
  | nil => rfl
  | cons a l ih =>
    cases a with
    | notify e k => rcases k with _ | ⟨_, _, _, _⟩ <;> simp [sentFrom, ih, curStep]
    | _ => simp [sentFrom, ih, curStep]

theorem sent_append (acts acts' : List (Action P)) : sent (acts ++ acts') = sent acts ++ sentFrom (current acts) acts' :=
  sentFrom_append 0 acts acts'

/-- The message is kept with the flags `fl` and the number `m`. -/
inductive KeptBy (acts : List (Action P)) : List String → Nat → Prop where
  | explicit {a b fl} : acts = a ++ .keep fl :: b → (∀ f, .keep f ∉ b) → KeptBy acts fl (current a)
  | implicit : (∀ x ∈ acts, ¬ Cancels x) → KeptBy acts [] 0

theorem keptBy_kept {acts : List (Action P)} {fl : List String} : Kept acts fl ↔ ∃ m, KeptBy acts fl m := by
  constructor
  · intro h
    cases h with
    | explicit e hb => exact ⟨_, .explicit e hb⟩
    | implicit h => exact ⟨0, .implicit h⟩
  · rintro ⟨m, h⟩
    cases h with
    | explicit e hb => exact .explicit e hb
    | implicit h => exact .implicit h

theorem keepsLast_init {acts : List (Action P)} {x : Action P} (h : KeepsLast (acts ++ [x])) : KeepsLast acts := by
  intro a fl b e y hy hc
  exact h a fl (b ++ [x]) (by rw [e]; simp) y (List.mem_append_left _ hy) hc

theorem keptBy_append {acts : List (Action P)} {x : Action P} (hx : ¬ Cancels x) (fl : List String) (m : Nat) :
    KeptBy (acts ++ [x]) fl m ↔ KeptBy acts fl m := by
  have hk : ∀ f, x ≠ .keep f := fun f e => hx (by rw [e]; trivial)
  constructor
  · intro h
    cases h with
    | @explicit a b _ e hb =>
      cases b using List.reverseRecOn with
      | nil =>
        have := (List.append_inj' e rfl).2
        simp only [List.cons.injEq, and_true] at this
        exact absurd this (hk fl)
      | append_singleton b y =>
        rw [← List.cons_append, ← List.append_assoc] at e
        refine .explicit (List.append_inj' e rfl).1 fun f hf => hb f (List.mem_append_left _ hf)
    | implicit h => exact .implicit fun y hy => h y (List.mem_append_left _ hy)
  · intro h
    cases h with
    | @explicit a b _ e hb =>
      refine .explicit (a := a) (b := b ++ [x]) (by rw [e]; simp) fun f hf => ?_
      rw [List.mem_append, List.mem_singleton] at hf
      rcases hf with hf | hf
      · exact hb f hf
      · exact hk f hf.symm
    | implicit h =>
      refine .implicit fun y hy => ?_
      rw [List.mem_append, List.mem_singleton] at hy
      rcases hy with hy | rfl
      · exact h y hy
      · exact hx

theorem kept_append {acts : List (Action P)} {x : Action P} (hx : ¬ Cancels x) (fl : List String) :
    Kept (acts ++ [x]) fl ↔ Kept acts fl := by
  simp only [keptBy_kept, keptBy_append hx]

/-- An action that cancels the implicit keep, and is no `keep`, leaves the message unkept. -/
theorem not_kept {acts : List (Action P)} {x : Action P} (hk : KeepsLast (acts ++ [x])) (hx : Cancels x) (hn : ∀ f, x ≠ .keep f)
    (fl : List String) : ¬ Kept (acts ++ [x]) fl := by
  intro h
  cases h with
  | @explicit a b _ e hb =>
    cases b using List.reverseRecOn with
    | nil =>
      have := (List.append_inj' e rfl).2
      simp only [List.cons.injEq, and_true] at this
      exact hn fl this
    | append_singleton b y =>
      obtain ⟨f, rfl⟩ : ∃ f, x = .keep f := by
        refine hk a fl (b ++ [y]) e x ?_ hx
        rw [← List.cons_append, ← List.append_assoc] at e
        have := (List.append_inj' e rfl).2
        simp only [List.cons.injEq, and_true] at this
        simp [this]
      exact hn f rfl
  | implicit h => exact h x (by simp) hx

theorem kept_mem {acts : List (Action P)} {fl : List String} (h : Kept acts fl) (hf : fl ≠ []) : .keep fl ∈ acts := by
  cases h with
  | explicit e _ => rw [e]; simp
  | implicit _ => exact absurd rfl hf

/-- `final_event` says whether the message is kept. -/
theorem fin_kept : ∀ (acts : List (Action P)), KeepsLast acts →
    (∃ fl m, fin acts = some (.keep fl m) ∧ KeptBy acts fl m) ∨
    ((fin acts = some .discard ∨ fin acts = none) ∧ ¬ ∃ fl, Kept acts fl) := by
  intro acts
  induction acts using List.reverseRecOn with
  | nil => exact fun _ => .inl ⟨[], 0, rfl, .implicit (by simp)⟩
  | append_singleton acts x ih =>
    intro h
    have ih := ih (keepsLast_init h)
    rw [fin_append]
    cases x with
    | keep fl => exact .inl ⟨fl, _, rfl, .explicit (a := acts) (b := []) rfl (by simp)⟩
    | discard => exact .inr ⟨.inl rfl, fun ⟨fl, hf⟩ => not_kept h trivial (by simp) fl hf⟩
    | ask p =>
      simpa only [finStep, keptBy_append (x := .ask p) (by simp [Cancels]), kept_append (x := .ask p) (by simp [Cancels])] using ih
    | mail k i m r c =>
      simpa only [finStep, keptBy_append (x := .mail k i m r c) (by simp [Cancels]), kept_append (x := .mail k i m r c) (by simp [Cancels])] using ih
    | notify e c =>
      simpa only [finStep, keptBy_append (x := .notify e c) (by simp [Cancels]), kept_append (x := .notify e c) (by simp [Cancels])] using ih
    | version i m =>
      simpa only [finStep, keptBy_append (x := .version i m) (by simp [Cancels]), kept_append (x := .version i m) (by simp [Cancels])] using ih
    | reject _ => exact .inr ⟨.inr rfl, fun ⟨fl, hf⟩ => not_kept h trivial (by simp) fl hf⟩
    | fileinto copy folder flags =>
      cases copy with
      | true =>
        have e : finStep (current acts) (fin acts) (.fileinto true folder flags) = fin acts := by
          simp only [finStep, if_true]
          split <;> simp_all
        rw [e]
        simpa only [keptBy_append (x := .fileinto true folder flags) (by simp [Cancels]), kept_append (x := .fileinto true folder flags) (by simp [Cancels])] using ih
      | false =>
        right
        refine ⟨?_, fun ⟨fl, hf⟩ => not_kept h rfl (by simp) fl hf⟩
        rcases ih with ⟨fl, m, e, hf⟩ | ⟨e | e, hf⟩
        · cases fl with
          | nil => rw [e]; exact .inr rfl
          | cons g gs =>
            obtain ⟨a, b, e⟩ := List.append_of_mem (kept_mem (keptBy_kept.2 ⟨m, hf⟩) (by simp))
            obtain ⟨f, hf⟩ := h a (g :: gs) (b ++ [.fileinto false folder flags]) (by rw [e]; simp) (.fileinto false folder flags)
              (by simp) rfl
            cases hf
        · rw [e]; exact .inr rfl
        · rw [e]; exact .inr rfl
    | redirect copy addr =>
      cases copy with
      | true =>
        have e : finStep (current acts) (fin acts) (.redirect true addr) = fin acts := by
          simp only [finStep, if_true]
          split <;> simp_all
        rw [e]
        simpa only [keptBy_append (x := .redirect true addr) (by simp [Cancels]), kept_append (x := .redirect true addr) (by simp [Cancels])] using ih
      | false =>
        right
        refine ⟨?_, fun ⟨fl, hf⟩ => not_kept h rfl (by simp) fl hf⟩
        rcases ih with ⟨fl, m, e, hf⟩ | ⟨e | e, hf⟩
        · rw [e]; exact .inr rfl
        · rw [e]; exact .inl rfl
        · rw [e]; exact .inr rfl

theorem keptBy_unique {acts : List (Action P)} {fl fl' : List String} {m m' : Nat} (h : KeptBy acts fl m) (h' : KeptBy acts fl' m') :
    fl = fl' ∧ m = m' := by
  have key : ∀ {a b a' b' : List (Action P)} {fl fl'}, a ++ .keep fl :: b = a' ++ .keep fl' :: b' → (∀ f, .keep f ∉ b) →
      (∀ f, .keep f ∉ b') → a = a' ∧ fl = fl' := by
    intro a
    induction a with
    | nil =>
      intro b a' b' fl fl' e hb hb'
      cases a' with
      | nil => simp only [List.nil_append, List.cons.injEq, Action.keep.injEq] at e; exact ⟨rfl, e.1⟩
      | cons x a' =>
        simp only [List.nil_append, List.cons_append, List.cons.injEq] at e
        exact absurd (by rw [e.2]; simp) (hb fl')
    | cons x a ih =>
      intro b a' b' fl fl' e hb hb'
      cases a' with
      | nil =>
        simp only [List.nil_append, List.cons_append, List.cons.injEq] at e
        exact absurd (by rw [← e.2]; simp) (hb' fl)
      | cons x' a' =>
        simp only [List.cons_append, List.cons.injEq] at e
        obtain ⟨h1, h2⟩ := ih e.2 hb hb'
        exact ⟨by rw [e.1, h1], h2⟩
  cases h with
  | explicit e hb =>
    cases h' with
    | explicit e' hb' =>
      obtain ⟨rfl, rfl⟩ := key (e.symm.trans e') hb hb'
      exact ⟨rfl, rfl⟩
    | implicit h' => exact absurd trivial (h' (.keep fl) (by rw [e]; simp))
  | implicit h =>
    cases h' with
    | explicit e' hb' => exact absurd trivial (h (.keep fl') (by rw [e']; simp))
    | implicit h' => exact ⟨rfl, rfl⟩

theorem kept_unique {acts : List (Action P)} {fl fl' : List String} (h : Kept acts fl) (h' : Kept acts fl') : fl = fl' := by
  obtain ⟨m, h⟩ := keptBy_kept.1 h
  obtain ⟨m', h'⟩ := keptBy_kept.1 h'
  exact (keptBy_unique h h').1

theorem discarded_append {acts : List (Action P)} {x : Action P} :
    Discarded (acts ++ [x]) ↔ x = .discard ∨ Discarded acts ∧ ¬ Undoes x := by
  constructor
  · rintro ⟨a, b, e, hb⟩
    cases b using List.reverseRecOn with
    | nil =>
      have := (List.append_inj' e rfl).2
      simp only [List.cons.injEq, and_true] at this
      exact .inl this
    | append_singleton b y =>
      rw [← List.cons_append, ← List.append_assoc] at e
      have h := (List.append_inj' e rfl).2
      simp only [List.cons.injEq, and_true] at h
      subst h
      exact .inr ⟨⟨a, b, (List.append_inj' e rfl).1, fun z hz => hb z (List.mem_append_left _ hz)⟩, hb x (by simp)⟩
  · rintro (rfl | ⟨⟨a, b, rfl, hb⟩, hx⟩)
    · exact ⟨acts, [], rfl, by simp⟩
    · refine ⟨a, b ++ [x], by simp, fun z hz => ?_⟩
      rw [List.mem_append, List.mem_singleton] at hz
      rcases hz with hz | rfl
      · exact hb z hz
      · exact hx

/-- `final_event` says whether the message is discarded. -/
theorem fin_discarded (acts : List (Action P)) : fin acts = some .discard ↔ Discarded acts := by
  induction acts using List.reverseRecOn with
  | nil =>
    refine ⟨fun h => ?_, fun ⟨a, b, e, _⟩ => ?_⟩
    · cases h
    · have := congrArg List.length e; simp at this
  | append_singleton acts x ih =>
    rw [fin_append, discarded_append]
    cases x with
    | keep fl => simp [finStep, Undoes]
    | discard => simp [finStep]
    | reject r => simp [finStep, Undoes]
    | ask p => simp [finStep, Undoes, ih]
    | mail _ _ _ _ _ => simp [finStep, Undoes, ih]
    | notify _ _ => simp [finStep, Undoes, ih]
    | version _ _ => simp [finStep, Undoes, ih]
    | fileinto copy folder flags =>
      simp only [Undoes, reduceCtorEq, false_or, ← ih, finStep]
      cases copy
      · split <;> simp
      · split
        · rename_i e; simp [e]
        · simp
    | redirect copy addr =>
      simp only [Undoes, reduceCtorEq, false_or, ← ih, finStep, not_false_eq_true, and_true]
      split
      · rename_i e; cases copy <;> simp [e]
      · rfl

/-! ## Questions -/

theorem asked_append (a b : List (Action P)) : asked (a ++ b) = asked a + asked b := by
  induction a with
  | nil => simp [asked]
  | cons x a ih => cases x <;> simp [asked, ih] <;> omega

/-! ## Messages -/

theorem made_append (a b : List (Action P)) : made (a ++ b) = made a + made b := by
  induction a with
  | nil => simp [made]
  | cons x a ih =>
    cases x with
    | notify e k => cases k <;> simp [made, ih]; omega
    | mail _ _ _ _ _ => simp [made, ih]; omega
    | version _ _ => simp [made, ih]; omega
    | _ => simp [made, ih]

/-! ## What is still to be done -/

/-- The meaning of what is still to be done, given the value just found. -/
def todo (I : Interp cfg A T E) : Todo A T E → Bool → State W V P → Option (State W V P × Bool)
  | [], _, s => some (s, false)
  | .blk b :: K, t, s => andThen (block I b s) (todo I K t)
  | .ops is :: K, t, s => andThen (commands I is s) (todo I K t)
  | .test e :: K, _, s =>
    match truth I e s with
    | some (b, s) => todo I K b s
    | none => none
  | .tests isAll l :: K, _, s =>
    match truths I isAll l s with
    | some (b, s) => todo I K b s
    | none => none
  | .neg :: K, t, s => todo I K (!t) s
  | .more isAll l :: K, t, s =>
    if t = isAll then
      match truths I isAll l s with
      | some (b, s) => todo I K b s
      | none => none
    else todo I K t s
  | .branch (.one _ b cl) :: K, t, s =>
    if t then andThen (andThen (block I b s) (clear I cl)) (todo I K t) else todo I K t s
  | .branch (.els _ b cl e cl') :: K, t, s =>
    if t then andThen (andThen (block I b s) (clear I cl)) (todo I K t)
    else andThen (andThen (block I e s) (clear I cl')) (todo I K t)
  | .branch (.elif _ b cl c) :: K, t, s =>
    if t then andThen (andThen (block I b s) (clear I cl)) (todo I K t) else andThen (chain I c s) (todo I K t)
  | .clear cl :: K, t, s => andThen (clear I cl s) (todo I K t)
  | .vac a :: K, t, s => if t then andThen (command cfg s (I.act a)) (todo I K t) else todo I K t s
  | _ :: _, _, _ => none

/-- The value just found is looked at. -/
def starts : Todo A T E → Bool
  | .neg :: _ | .more _ _ :: _ | .branch _ :: _ | .vac _ :: _ => true
  | _ => false

/-- The value of a test is looked at only after a test. -/
def Wf : Todo A T E → Prop
  | [] => True
  | .blk _ :: K | .ops _ :: K | .clear _ :: K | .branch _ :: K | .vac _ :: K => starts K = false ∧ Wf K
  | .test _ :: K | .tests _ _ :: K | .neg :: K | .more _ _ :: K => Wf K
  | _ :: _ => False

theorem todo_indep (I : Interp cfg A T E) : ∀ (K : Todo A T E), starts K = false → Wf K → ∀ (t t' : Bool) (s : State W V P),
    todo I K t s = todo I K t' s
  | [], _, _, _, _, _ => rfl
  | .blk b :: K, _, hw, t, t', s => by
    simp only [todo]
    congr 1
    funext s
    exact todo_indep I K hw.1 hw.2 t t' s
  | .ops is :: K, _, hw, t, t', s => by
    simp only [todo]
    congr 1
    funext s
    exact todo_indep I K hw.1 hw.2 t t' s
  | .clear cl :: K, _, hw, t, t', s => by
    simp only [todo]
    congr 1
    funext s
    exact todo_indep I K hw.1 hw.2 t t' s
  | .test _ :: K, _, _, _, _, _ => rfl
  | .tests _ _ :: K, _, _, _, _, _ => rfl
  | .neg :: _, h, _, _, _, _ => by simp [starts] at h
  | .more _ _ :: _, h, _, _, _, _ => by simp [starts] at h
  | .branch _ :: _, h, _, _, _, _ => by simp [starts] at h
  | .vac _ :: _, h, _, _, _, _ => by simp [starts] at h
  | .ev _ :: _, _, h, _, _, _ => h.elim
  | .loop _ _ _ :: _, _, h, _, _, _ => h.elim
  | .parts _ _ _ :: _, _, h, _, _, _ => h.elim

theorem andThen_assoc (r : Option (State W V P × Bool)) (f g : State W V P → Option (State W V P × Bool)) :
    andThen (andThen r f) g = andThen r fun s => andThen (f s) g := by
  rcases r with _ | ⟨s, b⟩
  · rfl
  · cases b <;> rfl

theorem todo_append_clear (I : Interp cfg A T E) (b : Blk A T E) (cl : Option A) (K : Todo A T E) (t : Bool) (s : State W V P) :
    todo I (.blk b :: .clear cl :: K) t s = andThen (andThen (block I b s) (clear I cl)) (todo I K t) := by
  rw [andThen_assoc]
  rfl

end Sieve.Base
