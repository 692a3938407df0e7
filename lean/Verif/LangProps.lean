import Verif.CoreProps
import Verif.LangSpec

/-!
# Scripts are carried out as `LangSpec` says

If the instructions of the tests and commands of a language do what they should, then all scripts do.
-/

namespace Sieve.Lang

open Sieve.Compile

variable {W V P' F S : Type}

/-- The instructions do what the language says, on the states of the interpreter that stand for states of the script. -/
structure Models {cfg : Vm.Cfg W V P'} (I : Source.Interp cfg (Script.Node F) (Script.Node F) (List UInt8)) (R P Q : Script.Node F → Prop)
    (T : Script.Node F → S → Bool → S → Prop) (D : Script.Node F → S → S → Bool → Prop) (Rep : S → Base.State W V P' → Prop) : Prop where
  test : ∀ n s st, R n → P n → Rep s st → ∃ b v s', Base.atomTruth I st (.leaf n) = some (b, v) ∧ T n s b s' ∧
    Rep s' v
  cmd : ∀ n s st, R n → Q n → Rep s st → ∃ s' b st', Base.command cfg st (I.act n) = some (st', b) ∧ D n s s' b ∧ Rep s' st'

/-- The commands and tests of a token. -/
def TokIn (R : Script.Node F → Prop) : Compile.Tok (Script.Node F) (Script.Node F) (List UInt8) → Prop
  | .act l => ∀ n ∈ l, R n
  | .leaf n => R n
  | .vac t a => R t ∧ R a
  | _ => True

section
variable {cfg : Vm.Cfg W V P'} {I : Source.Interp cfg (Script.Node F) (Script.Node F) (List UInt8)} {R P Q : Script.Node F → Prop}
  {T : Script.Node F → S → Bool → S → Prop} {D : Script.Node F → S → S → Bool → Prop} {Rep : S → Base.State W V P' → Prop}

mutual
theorem test_runs (h : Models I R P Q T D Rep) : ∀ (e : TestT F), (∀ k ∈ e.toks, TokIn R k) → TestIn P e →
    ∀ {s : S} {st : Base.State W V P'}, Rep s st →
      ∃ b v s', Base.truth I e st = some (b, v) ∧ Evals T e s b s' ∧ Rep s' v
  | .atom a, hr, hc, s, st, hs => by
    cases a with
    | tru => exact ⟨true, _, s, rfl, .tru, hs⟩
    | fls => exact ⟨false, _, s, rfl, .fls, hs⟩
    | leaf n =>
      obtain ⟨b, v, s', h1, h2, h3⟩ := h.test n s st (hr (.leaf n) (by simp [TestE.toks, Atom.tok])) hc hs
      exact ⟨b, v, s', h1, .leaf h2, h3⟩
    | ev _ => exact hc.elim
    | bad _ => exact hc.elim
  | .not e, hr, hc, s, st, hs => by
    obtain ⟨b, v, s', h1, h2, h3⟩ := test_runs h e (fun k hk => hr k (by simp [TestE.toks, hk])) hc hs
    refine ⟨!b, v, s', by simp [Base.truth, h1], ?_, h3⟩
    cases b
    · exact .notFalse h2
    · exact .notTrue h2
  | .any l, hr, hc, s, st, hs => by
    obtain ⟨b, v, s', h1, h2, h3⟩ := any_runs h l (fun k hk => hr k (by simp [TestE.toks, hk])) hc hs
    exact ⟨b, v, s', h1, .any h2, h3⟩
  | .all l, hr, hc, s, st, hs => by
    obtain ⟨b, v, s', h1, h2, h3⟩ := all_runs h l (fun k hk => hr k (by simp [TestE.toks, hk])) hc hs
    exact ⟨b, v, s', h1, .all h2, h3⟩
theorem any_runs (h : Models I R P Q T D Rep) : ∀ (l : TestsT F), (∀ k ∈ l.toks, TokIn R k) → TestsIn P l →
    ∀ {s : S} {st : Base.State W V P'}, Rep s st →
      ∃ b v s', Base.truths I false l st = some (b, v) ∧ EvalsAny T l s b s' ∧ Rep s' v
  | .one e, hr, hc, s, st, hs => by
    obtain ⟨b, v, s', h1, h2, h3⟩ := test_runs h e (fun k hk => hr k (by simp [Tests.toks, hk])) hc hs
    exact ⟨b, v, s', h1, .one h2, h3⟩
  | .cons e l, hr, hc, s, st, hs => by
    obtain ⟨b, v, s', h1, h2, h3⟩ := test_runs h e (fun k hk => hr k (by simp [Tests.toks, hk])) hc.1 hs
    cases b
    · obtain ⟨b, v', s'', h4, h5, h6⟩ := any_runs h l (fun k hk => hr k (by simp [Tests.toks, hk])) hc.2 h3
      exact ⟨b, v', s'', by simp only [Base.truths, h1, if_true]; exact h4, .next h2 h5, h6⟩
    · exact ⟨true, v, s', by simp [Base.truths, h1], .decides h2, h3⟩
theorem all_runs (h : Models I R P Q T D Rep) : ∀ (l : TestsT F), (∀ k ∈ l.toks, TokIn R k) → TestsIn P l →
    ∀ {s : S} {st : Base.State W V P'}, Rep s st →
      ∃ b v s', Base.truths I true l st = some (b, v) ∧ EvalsAll T l s b s' ∧ Rep s' v
  | .one e, hr, hc, s, st, hs => by
    obtain ⟨b, v, s', h1, h2, h3⟩ := test_runs h e (fun k hk => hr k (by simp [Tests.toks, hk])) hc hs
    exact ⟨b, v, s', h1, .one h2, h3⟩
  | .cons e l, hr, hc, s, st, hs => by
    obtain ⟨b, v, s', h1, h2, h3⟩ := test_runs h e (fun k hk => hr k (by simp [Tests.toks, hk])) hc.1 hs
    cases b
    · exact ⟨false, v, s', by simp [Base.truths, h1], .decides h2, h3⟩
    · obtain ⟨b, v', s'', h4, h5, h6⟩ := all_runs h l (fun k hk => hr k (by simp [Tests.toks, hk])) hc.2 h3
      exact ⟨b, v', s'', by simp only [Base.truths, h1, if_true]; exact h4, .next h2 h5, h6⟩
end

theorem commands_do (h : Models I R P Q T D Rep) : ∀ (l : List (Script.Node F)), (∀ n ∈ l, R n) → (∀ n ∈ l, Q n) →
    ∀ {s : S} {st : Base.State W V P'}, Rep s st →
      ∃ s' b st', Base.commands I l st = some (st', b) ∧ DoesAll D l s s' b ∧ Rep s' st'
  | [], _, _, s, st, hs => ⟨s, false, st, rfl, .nil, hs⟩
  | n :: l, hr, hc, s, st, hs => by
    obtain ⟨m, b, st1, h1, h2, h3⟩ := h.cmd n s st (hr n List.mem_cons_self) (hc n List.mem_cons_self) hs
    simp only [Base.commands, h1]
    cases b
    · obtain ⟨s', b, st', h4, h5, h6⟩ := commands_do h l (fun n hn => hr n (List.mem_cons_of_mem _ hn))
        (fun n hn => hc n (List.mem_cons_of_mem _ hn)) h3
      exact ⟨s', b, st', h4, .cons h2 h5, h6⟩
    · exact ⟨m, true, st1, rfl, .ends h2, h3⟩

mutual
theorem stmt_runs (h : Models I R P Q T D Rep) : ∀ (c : StmtT F), (∀ k ∈ c.toks, TokIn R k) → StmtIn P Q c →
    ∀ {s : S} {st : Base.State W V P'}, Rep s st →
      ∃ s' b st', Base.stmt I c st = some (st', b) ∧ RunStmt T D c s s' b ∧ Rep s' st'
  | .act l, hr, hc, s, st, hs => by
    obtain ⟨s', b, st', h1, h2, h3⟩ := commands_do h l (hr (.act l) (by simp [Stmt.toks])) hc hs
    exact ⟨s', b, st', h1, .act h2, h3⟩
  | .cond c, hr, hc, s, st, hs => by
    obtain ⟨s', b, st', h1, h2, h3⟩ := chain_runs h true c hr hc hs
    exact ⟨s', b, st', h1, .cond h2, h3⟩
  | .eval _, _, hc, _, _, _ => hc.elim
  | .vac t a, hr, hc, s, st, hs => by
    have hr := hr (.vac t a) (by simp [Stmt.toks])
    obtain ⟨b, v, m, h1, h2, h3⟩ := h.test t s st hr.1 hc.1 hs
    simp only [Base.stmt, h1]
    cases b
    · exact ⟨m, false, v, rfl, .vacNot h2, h3⟩
    · obtain ⟨s', b, st', h4, h5, h6⟩ := h.cmd a m v hr.2 hc.2 h3
      exact ⟨s', b, st', h4, .vac h2 h5, h6⟩
  | .loop _ _ _, _, hc, _, _, _ => hc.elim
  | .parts _ _ _, _, hc, _, _, _ => hc.elim
  | .brk _, _, hc, _, _, _ => hc.elim
  | .cont, _, hc, _, _, _ => hc.elim
  | .ret, _, _, s, st, hs => ⟨s, true, st, rfl, .ret, hs⟩
theorem block_runs (h : Models I R P Q T D Rep) : ∀ (l : BlkT F), (∀ k ∈ l.toks, TokIn R k) → BlkIn P Q l →
    ∀ {s : S} {st : Base.State W V P'}, Rep s st →
      ∃ s' b st', Base.block I l st = some (st', b) ∧ RunBlk T D l s s' b ∧ Rep s' st'
  | .nil, _, _, s, st, hs => ⟨s, false, st, rfl, .nil, hs⟩
  | .cons c l, hr, hc, s, st, hs => by
    obtain ⟨m, b, st1, h1, h2, h3⟩ := stmt_runs h c (fun k hk => hr k (by simp [Blk.toks, hk])) hc.1 hs
    simp only [Base.block, h1]
    cases b
    · obtain ⟨s', b, st', h4, h5, h6⟩ := block_runs h l (fun k hk => hr k (by simp [Blk.toks, hk])) hc.2 h3
      exact ⟨s', b, st', h4, .cons h2 h5, h6⟩
    · exact ⟨m, true, st1, rfl, .ends h2, h3⟩
theorem chain_runs (h : Models I R P Q T D Rep) (first : Bool) : ∀ (c : ChainT F), (∀ k ∈ c.toks first, TokIn R k) → ChainIn P Q c →
    ∀ {s : S} {st : Base.State W V P'}, Rep s st →
      ∃ s' b st', Base.chain I c st = some (st', b) ∧ RunChain T D c s s' b ∧ Rep s' st'
  | .one e b cl, hr, hc, s, st, hs => by
    obtain ⟨hc1, hc2, rfl⟩ := hc
    obtain ⟨v, w, m, h1, h2, h3⟩ := test_runs h e (fun k hk => hr k (by simp [Chain.toks, hk])) hc1 hs
    simp only [Base.chain, h1]
    cases v
    · exact ⟨m, false, _, rfl, .oneNot h2, h3⟩
    · obtain ⟨s', f, st', h4, h5, h6⟩ := block_runs h b (fun k hk => hr k (by simp [Chain.toks, hk])) hc2 h3
      refine ⟨s', f, st', ?_, .one h2 h5, h6⟩
      simp only [h4]
      cases f <;> rfl
  | .els e b cl c cl', hr, hc, s, st, hs => by
    obtain ⟨hc1, hc2, hc3, rfl, rfl⟩ := hc
    obtain ⟨v, w, m, h1, h2, h3⟩ := test_runs h e (fun k hk => hr k (by simp [Chain.toks, hk])) hc1 hs
    simp only [Base.chain, h1]
    cases v
    · obtain ⟨s', f, st', h4, h5, h6⟩ := block_runs h c (fun k hk => hr k (by simp [Chain.toks, hk])) hc3 h3
      refine ⟨s', f, st', ?_, .elsNot h2 h5, h6⟩
      simp only [h4]
      cases f <;> rfl
    · obtain ⟨s', f, st', h4, h5, h6⟩ := block_runs h b (fun k hk => hr k (by simp [Chain.toks, hk])) hc2 h3
      refine ⟨s', f, st', ?_, .els h2 h5, h6⟩
      simp only [h4]
      cases f <;> rfl
  | .elif e b cl c, hr, hc, s, st, hs => by
    obtain ⟨hc1, hc2, hc3, rfl⟩ := hc
    obtain ⟨v, w, m, h1, h2, h3⟩ := test_runs h e (fun k hk => hr k (by simp [Chain.toks, hk])) hc1 hs
    simp only [Base.chain, h1]
    cases v
    · obtain ⟨s', f, st', h4, h5, h6⟩ := chain_runs h false c (fun k hk => hr k (by simp [Chain.toks, hk])) hc3 h3
      exact ⟨s', f, st', h4, .elifNot h2 h5, h6⟩
    · obtain ⟨s', f, st', h4, h5, h6⟩ := block_runs h b (fun k hk => hr k (by simp [Chain.toks, hk])) hc2 h3
      refine ⟨s', f, st', ?_, .elif h2 h5, h6⟩
      simp only [h4]
      cases f <;> rfl
end
end

/-! ## What a script says is one thing -/

section
variable {R : Script.Node F → Prop} {T : Script.Node F → S → Bool → S → Prop} {D : Script.Node F → S → S → Bool → Prop}

/-- Tests have one result. -/
def TestsOnce (R : Script.Node F → Prop) (T : Script.Node F → S → Bool → S → Prop) : Prop :=
  ∀ n, R n → ∀ s b1 b2 s1 s2, T n s b1 s1 → T n s b2 s2 → b1 = b2 ∧ s1 = s2

/-- Commands do one thing. -/
def DoesOnce (R : Script.Node F → Prop) (D : Script.Node F → S → S → Bool → Prop) : Prop :=
  ∀ n, R n → ∀ s s1 s2 b1 b2, D n s s1 b1 → D n s s2 b2 → s1 = s2 ∧ b1 = b2

mutual
theorem test_unique (hT : TestsOnce R T) : ∀ (e : TestT F), (∀ k ∈ e.toks, TokIn R k) → ∀ {s s1 s2 : S} {b1 b2 : Bool},
    Evals T e s b1 s1 → Evals T e s b2 s2 → b1 = b2 ∧ s1 = s2
  | .atom a, hr, s, s1, s2, b1, b2, h1, h2 => by
    cases h1 with
    | tru => cases h2; exact ⟨rfl, rfl⟩
    | fls => cases h2; exact ⟨rfl, rfl⟩
    | leaf h1 => cases h2 with | leaf h2 => exact hT _ (hr (.leaf _) (by simp [TestE.toks, Atom.tok])) _ _ _ _ _ h1 h2
  | .not e, hr, s, s1, s2, b1, b2, h1, h2 => by
    have u := fun {s s1 s2 b1 b2} => test_unique (s := s) (s1 := s1) (s2 := s2) (b1 := b1) (b2 := b2) hT e
      (fun k hk => hr k (by simp [TestE.toks, hk]))
    cases h1 with
    | notTrue h1 => cases h2 with
      | notTrue h2 => exact ⟨rfl, (u h1 h2).2⟩
      | notFalse h2 => cases (u h1 h2).1
    | notFalse h1 => cases h2 with
      | notTrue h2 => cases (u h1 h2).1
      | notFalse h2 => exact ⟨rfl, (u h1 h2).2⟩
  | .any l, hr, s, s1, s2, b1, b2, h1, h2 => by
    cases h1 with | any h1 => cases h2 with | any h2 => exact any_unique hT l (fun k hk => hr k (by simp [TestE.toks, hk])) h1 h2
  | .all l, hr, s, s1, s2, b1, b2, h1, h2 => by
    cases h1 with | all h1 => cases h2 with | all h2 => exact all_unique hT l (fun k hk => hr k (by simp [TestE.toks, hk])) h1 h2
theorem any_unique (hT : TestsOnce R T) : ∀ (l : TestsT F), (∀ k ∈ l.toks, TokIn R k) → ∀ {s s1 s2 : S} {b1 b2 : Bool},
    EvalsAny T l s b1 s1 → EvalsAny T l s b2 s2 → b1 = b2 ∧ s1 = s2
  | .one e, hr, s, s1, s2, b1, b2, h1, h2 => by
    cases h1 with | one h1 => cases h2 with | one h2 => exact test_unique hT e (fun k hk => hr k (by simp [Tests.toks, hk])) h1 h2
  | .cons e l, hr, s, s1, s2, b1, b2, h1, h2 => by
    have u := fun {s s1 s2 b1 b2} => test_unique (s := s) (s1 := s1) (s2 := s2) (b1 := b1) (b2 := b2) hT e
      (fun k hk => hr k (by simp [Tests.toks, hk]))
    cases h1 with
    | decides h1 => cases h2 with
      | decides h2 => exact ⟨rfl, (u h1 h2).2⟩
      | next h2 _ => cases (u h1 h2).1
    | next h1 h1' => cases h2 with
      | decides h2 => cases (u h1 h2).1
      | next h2 h2' =>
        obtain rfl := (u h1 h2).2
        exact any_unique hT l (fun k hk => hr k (by simp [Tests.toks, hk])) h1' h2'
theorem all_unique (hT : TestsOnce R T) : ∀ (l : TestsT F), (∀ k ∈ l.toks, TokIn R k) → ∀ {s s1 s2 : S} {b1 b2 : Bool},
    EvalsAll T l s b1 s1 → EvalsAll T l s b2 s2 → b1 = b2 ∧ s1 = s2
  | .one e, hr, s, s1, s2, b1, b2, h1, h2 => by
    cases h1 with | one h1 => cases h2 with | one h2 => exact test_unique hT e (fun k hk => hr k (by simp [Tests.toks, hk])) h1 h2
  | .cons e l, hr, s, s1, s2, b1, b2, h1, h2 => by
    have u := fun {s s1 s2 b1 b2} => test_unique (s := s) (s1 := s1) (s2 := s2) (b1 := b1) (b2 := b2) hT e
      (fun k hk => hr k (by simp [Tests.toks, hk]))
    cases h1 with
    | decides h1 => cases h2 with
      | decides h2 => exact ⟨rfl, (u h1 h2).2⟩
      | next h2 _ => cases (u h1 h2).1
    | next h1 h1' => cases h2 with
      | decides h2 => cases (u h1 h2).1
      | next h2 h2' =>
        obtain rfl := (u h1 h2).2
        exact all_unique hT l (fun k hk => hr k (by simp [Tests.toks, hk])) h1' h2'
end

theorem doesAll_unique (hD : DoesOnce R D) : ∀ {l : List (Script.Node F)}, (∀ n ∈ l, R n) → ∀ {s s1 s2 : S} {b1 b2 : Bool},
    DoesAll D l s s1 b1 → DoesAll D l s s2 b2 → s1 = s2 ∧ b1 = b2
  | [], _, _, _, _, _, _, h1, h2 => by cases h1; cases h2; exact ⟨rfl, rfl⟩
  | n :: l, hr, s, s1, s2, b1, b2, h1, h2 => by
    have u := hD n (hr n List.mem_cons_self)
    cases h1 with
    | ends h1 =>
      cases h2 with
      | ends h2 => exact u _ _ _ _ _ h1 h2
      | cons h2 _ => cases (u _ _ _ _ _ h1 h2).2
    | cons h1 h1' =>
      cases h2 with
      | ends h2 => cases (u _ _ _ _ _ h1 h2).2
      | cons h2 h2' =>
        obtain rfl := (u _ _ _ _ _ h1 h2).1
        exact doesAll_unique hD (fun n hn => hr n (List.mem_cons_of_mem _ hn)) h1' h2'

mutual
theorem stmt_unique (hT : TestsOnce R T) (hD : DoesOnce R D) : ∀ (c : StmtT F), (∀ k ∈ c.toks, TokIn R k) →
    ∀ {s s1 s2 : S} {b1 b2 : Bool}, RunStmt T D c s s1 b1 → RunStmt T D c s s2 b2 → s1 = s2 ∧ b1 = b2
  | .act l, hr, _, _, _, _, _, h1, h2 => by
    cases h1 with
    | act h1 =>
      cases h2 with
      | act h2 => exact doesAll_unique hD (hr (.act l) (by simp [Stmt.toks])) h1 h2
  | .cond c, hr, _, _, _, _, _, h1, h2 => by
    cases h1 with
    | cond h1 =>
      cases h2 with
      | cond h2 => exact chain_unique hT hD true c hr h1 h2
  | .eval _, _, _, _, _, _, _, h1, _ => by cases h1
  | .vac t a, hr, _, _, _, _, _, h1, h2 => by
    have hr := hr (.vac t a) (by simp [Stmt.toks])
    cases h1 with
    | vac h1 h1' =>
      cases h2 with
      | vac h2 h2' =>
        obtain rfl := (hT _ hr.1 _ _ _ _ _ h1 h2).2
        exact hD _ hr.2 _ _ _ _ _ h1' h2'
      | vacNot h2 => cases (hT _ hr.1 _ _ _ _ _ h1 h2).1
    | vacNot h1 =>
      cases h2 with
      | vac h2 _ => cases (hT _ hr.1 _ _ _ _ _ h1 h2).1
      | vacNot h2 => exact ⟨(hT _ hr.1 _ _ _ _ _ h1 h2).2, rfl⟩
  | .loop _ _ _, _, _, _, _, _, _, h1, _ => by cases h1
  | .parts _ _ _, _, _, _, _, _, _, h1, _ => by cases h1
  | .brk _, _, _, _, _, _, _, h1, _ => by cases h1
  | .cont, _, _, _, _, _, _, h1, _ => by cases h1
  | .ret, _, _, _, _, _, _, h1, h2 => by cases h1; cases h2; exact ⟨rfl, rfl⟩
theorem block_unique (hT : TestsOnce R T) (hD : DoesOnce R D) : ∀ (l : BlkT F), (∀ k ∈ l.toks, TokIn R k) →
    ∀ {s s1 s2 : S} {b1 b2 : Bool}, RunBlk T D l s s1 b1 → RunBlk T D l s s2 b2 → s1 = s2 ∧ b1 = b2
  | .nil, _, _, _, _, _, _, h1, h2 => by cases h1; cases h2; exact ⟨rfl, rfl⟩
  | .cons c l, hr, _, _, _, _, _, h1, h2 => by
    have u := fun {s s1 s2 b1 b2} => stmt_unique (s := s) (s1 := s1) (s2 := s2) (b1 := b1) (b2 := b2) hT hD c
      (fun k hk => hr k (by simp [Blk.toks, hk]))
    cases h1 with
    | ends h1 =>
      cases h2 with
      | ends h2 => exact u h1 h2
      | cons h2 _ => cases (u h1 h2).2
    | cons h1 h1' =>
      cases h2 with
      | ends h2 => cases (u h1 h2).2
      | cons h2 h2' =>
        obtain rfl := (u h1 h2).1
        exact block_unique hT hD l (fun k hk => hr k (by simp [Blk.toks, hk])) h1' h2'
theorem chain_unique (hT : TestsOnce R T) (hD : DoesOnce R D) (first : Bool) : ∀ (c : ChainT F), (∀ k ∈ c.toks first, TokIn R k) →
    ∀ {s s1 s2 : S} {b1 b2 : Bool}, RunChain T D c s s1 b1 → RunChain T D c s s2 b2 → s1 = s2 ∧ b1 = b2
  | .one e b cl, hr, _, _, _, _, _, h1, h2 => by
    have u := fun {s s1 s2 b1 b2} => test_unique (s := s) (s1 := s1) (s2 := s2) (b1 := b1) (b2 := b2) hT e
      (fun k hk => hr k (by simp [Chain.toks, hk]))
    cases h1 with
    | one h1 h1' =>
      cases h2 with
      | one h2 h2' =>
        obtain rfl := (u h1 h2).2
        exact block_unique hT hD b (fun k hk => hr k (by simp [Chain.toks, hk])) h1' h2'
      | oneNot h2 => cases (u h1 h2).1
    | oneNot h1 =>
      cases h2 with
      | one h2 _ => cases (u h1 h2).1
      | oneNot h2 => exact ⟨(u h1 h2).2, rfl⟩
  | .els e b cl c cl', hr, _, _, _, _, _, h1, h2 => by
    have u := fun {s s1 s2 b1 b2} => test_unique (s := s) (s1 := s1) (s2 := s2) (b1 := b1) (b2 := b2) hT e
      (fun k hk => hr k (by simp [Chain.toks, hk]))
    cases h1 with
    | els h1 h1' =>
      cases h2 with
      | els h2 h2' =>
        obtain rfl := (u h1 h2).2
        exact block_unique hT hD b (fun k hk => hr k (by simp [Chain.toks, hk])) h1' h2'
      | elsNot h2 => cases (u h1 h2).1
    | elsNot h1 h1' =>
      cases h2 with
      | els h2 _ => cases (u h1 h2).1
      | elsNot h2 h2' =>
        obtain rfl := (u h1 h2).2
        exact block_unique hT hD c (fun k hk => hr k (by simp [Chain.toks, hk])) h1' h2'
  | .elif e b cl c, hr, _, _, _, _, _, h1, h2 => by
    have u := fun {s s1 s2 b1 b2} => test_unique (s := s) (s1 := s1) (s2 := s2) (b1 := b1) (b2 := b2) hT e
      (fun k hk => hr k (by simp [Chain.toks, hk]))
    cases h1 with
    | elif h1 h1' =>
      cases h2 with
      | elif h2 h2' =>
        obtain rfl := (u h1 h2).2
        exact block_unique hT hD b (fun k hk => hr k (by simp [Chain.toks, hk])) h1' h2'
      | elifNot h2 => cases (u h1 h2).1
    | elifNot h1 h1' =>
      cases h2 with
      | elif h2 _ => cases (u h1 h2).1
      | elifNot h2 h2' =>
        obtain rfl := (u h1 h2).2
        exact chain_unique hT hD false c (fun k hk => hr k (by simp [Chain.toks, hk])) h1' h2'
end
end

/-! ## What holds all the time -/

section
variable {P Q : Script.Node F → Prop} {J : S → Prop} {T : Script.Node F → S → Bool → S → Prop} {D : Script.Node F → S → S → Bool → Prop}

mutual
theorem test_invariant (hT : ∀ n s b s', P n → T n s b s' → J s → J s') : ∀ {e : TestT F} {s b s'}, Evals T e s b s' → TestIn P e → J s → J s'
  | _, _, _, _, .tru, _, h => h
  | _, _, _, _, .fls, _, h => h
  | _, _, _, _, .leaf ht, hp, h => hT _ _ _ _ hp ht h
  | _, _, _, _, .notTrue ht, hp, h => test_invariant hT ht hp h
  | _, _, _, _, .notFalse ht, hp, h => test_invariant hT ht hp h
  | _, _, _, _, .any ht, hp, h => any_invariant hT ht hp h
  | _, _, _, _, .all ht, hp, h => all_invariant hT ht hp h
theorem any_invariant (hT : ∀ n s b s', P n → T n s b s' → J s → J s') : ∀ {l : TestsT F} {s b s'}, EvalsAny T l s b s' → TestsIn P l → J s → J s'
  | _, _, _, _, .one ht, hp, h => test_invariant hT ht hp h
  | _, _, _, _, .decides ht, hp, h => test_invariant hT ht hp.1 h
  | _, _, _, _, .next ht hl, hp, h => any_invariant hT hl hp.2 (test_invariant hT ht hp.1 h)
theorem all_invariant (hT : ∀ n s b s', P n → T n s b s' → J s → J s') : ∀ {l : TestsT F} {s b s'}, EvalsAll T l s b s' → TestsIn P l → J s → J s'
  | _, _, _, _, .one ht, hp, h => test_invariant hT ht hp h
  | _, _, _, _, .decides ht, hp, h => test_invariant hT ht hp.1 h
  | _, _, _, _, .next ht hl, hp, h => all_invariant hT hl hp.2 (test_invariant hT ht hp.1 h)
end

theorem doesAll_invariant (hD : ∀ n s s' b, Q n → D n s s' b → J s → J s') {l : List (Script.Node F)} {s s' b} (h : DoesAll D l s s' b)
    (hq : ∀ n ∈ l, Q n) (hj : J s) : J s' := by
  induction h with
  | nil => exact hj
  | ends h => exact hD _ _ _ _ (hq _ List.mem_cons_self) h hj
  | cons h _ ih => exact ih (fun n hn => hq n (List.mem_cons_of_mem _ hn)) (hD _ _ _ _ (hq _ List.mem_cons_self) h hj)

mutual
theorem stmt_invariant (hT : ∀ n s b s', P n → T n s b s' → J s → J s') (hD : ∀ n s s' b, Q n → D n s s' b → J s → J s') :
    ∀ {c : StmtT F} {s s' b}, RunStmt T D c s s' b → StmtIn P Q c → J s → J s'
  | _, _, _, _, .act hr, hp, h => doesAll_invariant hD hr hp h
  | _, _, _, _, .cond hr, hp, h => chain_invariant hT hD hr hp h
  | _, _, _, _, .vac ht hr, hp, h => hD _ _ _ _ hp.2 hr (hT _ _ _ _ hp.1 ht h)
  | _, _, _, _, .vacNot ht, hp, h => hT _ _ _ _ hp.1 ht h
  | _, _, _, _, .ret, _, h => h
theorem block_invariant (hT : ∀ n s b s', P n → T n s b s' → J s → J s') (hD : ∀ n s s' b, Q n → D n s s' b → J s → J s') :
    ∀ {l : BlkT F} {s s' b}, RunBlk T D l s s' b → BlkIn P Q l → J s → J s'
  | _, _, _, _, .nil, _, h => h
  | _, _, _, _, .ends hr, hp, h => stmt_invariant hT hD hr hp.1 h
  | _, _, _, _, .cons hr hl, hp, h => block_invariant hT hD hl hp.2 (stmt_invariant hT hD hr hp.1 h)
theorem chain_invariant (hT : ∀ n s b s', P n → T n s b s' → J s → J s') (hD : ∀ n s s' b, Q n → D n s s' b → J s → J s') :
    ∀ {c : ChainT F} {s s' b}, RunChain T D c s s' b → ChainIn P Q c → J s → J s'
  | _, _, _, _, .one ht hr, hp, h => block_invariant hT hD hr hp.2.1 (test_invariant hT ht hp.1 h)
  | _, _, _, _, .oneNot ht, hp, h => test_invariant hT ht hp.1 h
  | _, _, _, _, .els ht hr, hp, h => block_invariant hT hD hr hp.2.1 (test_invariant hT ht hp.1 h)
  | _, _, _, _, .elsNot ht hr, hp, h => block_invariant hT hD hr hp.2.2.1 (test_invariant hT ht hp.1 h)
  | _, _, _, _, .elif ht hr, hp, h => block_invariant hT hD hr hp.2.1 (test_invariant hT ht hp.1 h)
  | _, _, _, _, .elifNot ht hr, hp, h => chain_invariant hT hD hr hp.2.2.1 (test_invariant hT ht hp.1 h)
end

end

end Sieve.Lang
