import Verif.ScopeProps
import Verif.MatchVarProps
import Verif.VmProps

/-!
# C117: the number of variables of an accepted script

The compiler has settings for the number of local and match variables (`max_local_variables`, `max_match_variables`, `src/lib.rs:50-51`),
which it does not read.  The runtime does not run scripts with more than 256 local or 63 match variables.
-/

namespace Sieve.Scope

variable {W V R K : Type}

/-- How often a script assigns to variables. -/
def assigns : Code W V R K → Nat
  | .seq a b => assigns a + assigns b
  | .set .. => 1
  | .ite _ _ a _ b _ => assigns a + assigns b
  | .loop _ _ a _ => assigns a
  | _ => 0

/-- The slots needed so far. -/
def need (st : St) : Nat := max st.max st.num + st.loc

theorem register_slots (st : St) (n : Name) (l : Bool) : need (register st n l).2 ≤ need st + 1 := by
  unfold register
  split
  · exact Nat.le_succ _
  · split
    · have := Nat.le_max_left st.max st.num
      have := Nat.le_max_right st.max st.num
      simp only [need]
      have : max st.max (st.num + 1) ≤ max st.max st.num + 1 := Nat.max_le.2 ⟨by omega, by omega⟩
      omega
    · simp only [need]; omega

theorem declare_slots (st : St) (x : Var) (l : Bool) : need (declare st x l).2 ≤ need st + 1 := by
  unfold declare
  cases x with
  | global n => exact Nat.le_succ _
  | plain n =>
    simp only
    split
    · exact Nat.le_succ _
    · exact register_slots st _ l

theorem open_slots (st : St) : need («open» st) = need st := rfl

theorem close_slots (st : St) : need (close st).2 ≤ need st := by
  unfold close
  simp only
  split
  · simp only [need]
    have h1 := Nat.le_max_left st.max st.num
    have h2 := Nat.le_max_right st.max st.num
    have : max (max st.max st.num) (st.num - st.block.length) ≤ max st.max st.num :=
      Nat.max_le.2 ⟨Nat.le_refl _, by omega⟩
    omega
  · exact Nat.le_refl _

theorem resolve_slots (s : Stmt W V) : ∀ {st c st'}, resolve s st = some (c, st') → need st' ≤ need st + assigns s := by
  induction s with
  | skip => rintro st c st' ⟨⟩; exact Nat.le_refl _
  | exit e => rintro st c st' ⟨⟩; exact Nat.le_refl _
  | act us f => rintro st c st' ⟨⟩; exact Nat.le_refl _
  | global n =>
    intro st c st' h
    unfold resolve at h
    split at h
    · cases h
    · cases h; exact Nat.le_refl _
  | set x l us f => rintro st c st' ⟨⟩; exact declare_slots st x l
  | seq a b iha ihb =>
    intro st c st' h
    simp only [resolve, bind, Option.bind_eq_some_iff] at h
    obtain ⟨r, hr, q, hq, h⟩ := h
    cases h
    have h1 := iha hr
    have h2 := ihb hq
    simp only [assigns]
    omega
  | ite us g a ka b kb iha ihb =>
    intro st c st' h
    simp only [resolve, bind, Option.bind_eq_some_iff] at h
    obtain ⟨r, hr, q, hq, h⟩ := h
    cases h
    have h1 := iha hr
    have h2 := ihb hq
    have h3 := close_slots r.2
    have h4 := close_slots q.2
    simp only [open_slots] at h1 h2
    simp only [assigns]
    omega
  | loop us g a ka iha =>
    intro st c st' h
    simp only [resolve, bind, Option.bind_eq_some_iff] at h
    obtain ⟨r, hr, h⟩ := h
    cases h
    have h1 := iha hr
    have h3 := close_slots r.2
    simp only [open_slots] at h1
    simp only [assigns]
    omega

/-- **C117 (part)** A script has no more local variables than it assigns to. -/
theorem local_count (s : Stmt W V) {c n} (h : compile s = some (c, n)) : n ≤ assigns s := by
  unfold compile at h
  cases hr : resolve s St.new with
  | none => rw [hr] at h; cases h
  | some p =>
    obtain ⟨c', st⟩ := p
    rw [hr] at h
    have hs := resolve_slots s hr
    have h0 : need St.new = 0 := rfl
    rw [h0, Nat.zero_add] at hs
    simp only [need] at hs
    simp only at h
    split at h <;> cases h <;> omega

/-- **C117 (part)** So a script with at most 256 assignments and any number of match variables that compiles is run: the runtime accepts
it. -/
theorem accepted_partial {W' V' P : Type} (s : Stmt W V) {c n} (h : compile s = some (c, n)) (ha : assigns s ≤ 256)
    {U : Type} (m : MatchVar.Stmt U) {p} (hm : MatchVar.compile m = some p)
    (cfg : Vm.Cfg W' V' P) (x : Vm.Ctx W' V' P) (nm : Vm.Name) (code : List (Vm.Instr W' V' P)) :
    (Vm.applyInput cfg x (.script nm ⟨code, n, p.2.2⟩)).stack = ⟨⟨code, n, p.2.2⟩, x.pos, x.locals, x.matchv⟩ :: x.stack := by
  have h1 := local_count s h
  have h2 := MatchVar.match_count m hm
  unfold Vm.applyInput
  simp only
  rw [if_pos ⟨h2, Nat.le_trans h1 ha⟩]
  rfl

/-! ## No limit in the compiler -/

/-- `set "a" ""; set "aa" ""; …` -/
def many : Nat → Stmt Unit Unit
  | 0 => .skip
  | n + 1 => .seq (many n) (.set (.plain (List.replicate (n + 1) 'a')) false [] fun _ _ => ())

theorem ascii_a : ∀ n, ascii (List.replicate n 'a') = List.replicate n 'a'
  | n => by simp only [ascii, List.map_replicate]; rfl

theorem many_resolve : ∀ n, ∃ c st, resolve (many n) St.new = some (c, st) ∧ st.num = n ∧ st.max = 0 ∧ st.loc = 0 ∧ st.globals = [] ∧
    st.stack = [] ∧ ∀ e ∈ st.block, e.1.length ≤ n
  | 0 => ⟨_, _, rfl, rfl, rfl, rfl, rfl, rfl, by simp [St.new]⟩
  | n + 1 => by
    obtain ⟨c, st, h1, h2, h3, h4, h5, h6, h7⟩ := many_resolve n
    have hg : getLocal st (List.replicate (n + 1) 'a') = none := by
      unfold getLocal
      rw [h6, List.findSome?_eq_none_iff]
      intro b hb
      simp only [List.mem_cons, List.not_mem_nil, or_false] at hb
      subst hb
      unfold find
      rw [Option.map_eq_none_iff, List.find?_eq_none]
      intro e he heq
      have h8 := h7 e he
      simp only [decide_eq_true_eq, ascii_a] at heq
      rw [heq, List.length_replicate] at h8
      omega
    have hd : declare st (.plain (List.replicate (n + 1) 'a')) false =
        (.loc st.num, { st with block := (List.replicate (n + 1) 'a', st.num) :: st.block, num := st.num + 1 }) := by
      simp only [declare, ascii_a, isGlobal, h5, register, hg]
      simp
    refine ⟨.seq c (.set (.loc st.num) false [] fun _ _ => ()), { st with block := (List.replicate (n + 1) 'a', st.num) :: st.block, num := st.num + 1 }, ?_, ?_, h3, h4, h5, h6, ?_⟩
    · simp only [many, resolve, h1, bind, Option.bind_some, hd]
      rfl
    · simp only [h2]
    · intro e he
      simp only [List.mem_cons] at he
      rcases he with rfl | he
      · simp
      · exact Nat.le_succ_of_le (h7 e he)

/-- **Negation of C117.** Whatever `max_local_variables` is: a script with one variable more is accepted. -/
theorem local_limit_unused (limit : Nat) : ∃ c, compile (many (limit + 1)) = some (c, limit + 1) := by
  obtain ⟨c, st, h1, h2, h3, h4, -⟩ := many_resolve (limit + 1)
  refine ⟨c, ?_⟩
  unfold compile
  rw [h1]
  simp [h2, h3, h4]

/-- **Negation of C117.** A script with 257 variables is accepted by the compiler, and not run: nothing is executed and no error is
reported. -/
theorem large_script_not_run : (∃ c, compile (many 257) = some (c, 257)) ∧
    ∀ n, Vm.outputs (((Vm.play Vm.demo (Vm.Ctx.new []) (.script ⟨false, ""⟩ ⟨[Vm.keepI []], 257, 0⟩ ::
      List.replicate n .true)).map Prod.fst).getD []) = List.replicate (n + 1) .none :=
  ⟨local_limit_unused 256, Vm.oversized_script_no_keep⟩

/-- **Negation of C117.** Whatever `max_match_variables` is, as long as it is below 63: a script that reads the variable of this number is
accepted and has one variable more. -/
theorem match_limit_unused (limit : Nat) (h : limit < 63) :
    ∃ p, MatchVar.compile (.seq (.ite (.atom ⟨true, [], [], fun w _ => (w, none)⟩) .skip .skip) (.act [limit] fun w _ => w) :
      MatchVar.Stmt Unit) = some p ∧ p.2.2 = limit + 1 := by
  simp only [MatchVar.compile, MatchVar.stmt, MatchVar.cond, MatchVar.atom, MatchVar.vars, MatchVar.var, MatchVar.maxMatch, if_pos h, bind,
    Option.bind_some]
  exact ⟨_, rfl, Nat.zero_max _⟩

example : assigns (many 3) = 3 ∧ ((compile (many 3)).map fun p => p.2) = some 3 := by decide

end Sieve.Scope
