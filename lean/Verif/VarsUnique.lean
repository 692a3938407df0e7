import Verif.VarsProps
import Verif.CoreUnique
import Mathlib.Data.List.Sort

/-!
# C122: what a script with variables says is one thing
-/

namespace Sieve.Vars

open Sieve.Args Sieve.Fields Sieve.Compile

variable {W V F N : Type} [DecidableEq F]

/-- The time limits of a `redirect` are dates whatever the variables are, and a `set` has not two modifiers of the same precedence. -/
def Clear (H : Host W F N) (w : W) (n : Script.Node F) : Prop :=
  (∀ σ, Core.Dated (seen H) (σ, w) n) ∧
    ∀ g, n = .cmd .Set g → ∀ a b, Asks g a → Asks g b → SetVar.precedence a = SetVar.precedence b → a = b

def TokClear (H : Host W F N) (w : W) : Compile.Tok (Script.Node F) (Script.Node F) (List UInt8) → Prop
  | .act l => ∀ n ∈ l, Clear H w n
  | _ => True

theorem limited_unique {A : Expr.Flt F} {max : Nat} {v a b : Expr.Val F} (ha : Limited A max v a) (hb : Limited A max v b) : a = b := by
  have long : ∀ {s t t' : List Char}, LongestPrefix max s t → LongestPrefix max s t' → t = t' := by
    rintro s t t' ⟨h1, h2, h3⟩ ⟨h1', h2', h3'⟩
    exact (h3' t h1 h2).eq_of_length_le (h3 t' h1' h2').length_le
  cases ha with
  | str h => cases hb with | str h' => rw [long h h']
  | int => cases hb; rfl
  | flt => cases hb; rfl
  | arr hn h =>
    cases hb with
    | arr _ _ => rfl
    | long hn' h' _ => have := takes_unique hn hn'; omega
  | long hn h h1 =>
    cases hb with
    | arr hn' h' => have := takes_unique hn hn'; omega
    | long _ _ h1' => rw [long h1 h1']

theorem changed_unique {A : Expr.Flt F} {x : SetVar.Ext} {max : Nat} {ms : List SetVar.Modifier} {v a b : Expr.Val F}
    (ha : Changed A x max ms v a) (hb : Changed A x max ms v b) : a = b := by
  rw [changed_iff] at ha hb
  rw [ha, hb]

theorem setTo_unique {A : Expr.Flt F} {x : SetVar.Ext} {max : Nat} {g : Got F} {v a b : Expr.Val F}
    (hc : ∀ a b, Asks g a → Asks g b → SetVar.precedence a = SetVar.precedence b → a = b)
    (ha : SetTo A x max g v a) (hb : SetTo A x max g v b) : a = b := by
  obtain ⟨l, c, h1, h2, h3, h4, h5⟩ := ha
  obtain ⟨l', c', h1', h2', h3', h4', h5'⟩ := hb
  have hp : l.Perm l' := (List.perm_ext_iff_of_nodup h2 h2').2 fun m => (h1 m).trans (h1' m).symm
  have e : l = l' := hp.eq_of_pairwise (fun p q hp hq e1 e2 => hc p q ((h1 p).1 hp) ((h1' q).1 hq) (Nat.le_antisymm e2 e1)) h3 h3'
  subst e
  obtain rfl := changed_unique h4 h4'
  exact limited_unique h5 h5'

theorem does_unique {x : Args.Ext F} {H : Host W F N} {cfg : Vm.Cfg W V Core.Place} {w : W} {n : Script.Node F} (hr : Core.Read x n)
    (hd : Clear H w n) {s s1 s2 : St F} {b1 b2 : Bool} (h1 : Does H cfg w n s s1 b1) (h2 : Does H cfg w n s s2 b2) : s1 = s2 ∧ b1 = b2 := by
  cases h1 with
  | core h1 =>
    cases h2 with
    | core h2 =>
      obtain ⟨rfl, rfl⟩ := Core.does_unique hr (hd.1 s.vars) h1 h2
      exact ⟨rfl, rfl⟩
    | set _ _ => cases h1
  | set h1 h1' =>
    cases h2 with
    | core h2 => cases h2
    | set h2 h2' =>
      rw [h1] at h2
      simp only [List.cons.injEq, Arg.text.injEq, Arg.val.injEq, and_true] at h2
      obtain ⟨rfl, rfl⟩ := h2
      rw [setTo_unique (hd.2 _ rfl) h1' h2']
      exact ⟨rfl, rfl⟩

theorem doesAll_unique {x : Args.Ext F} {H : Host W F N} {cfg : Vm.Cfg W V Core.Place} {w : W} : ∀ {l : List (Script.Node F)},
    (∀ n ∈ l, Core.Read x n) → (∀ n ∈ l, Clear H w n) → ∀ {s s1 s2 : St F} {b1 b2 : Bool}, DoesAll H cfg w l s s1 b1 → DoesAll H cfg w l s s2 b2 →
      s1 = s2 ∧ b1 = b2
  | [], _, _, _, _, _, _, _, h1, h2 => by cases h1; cases h2; exact ⟨rfl, rfl⟩
  | n :: l, hr, hd, _, _, _, _, _, h1, h2 => by
    have u := fun {s s1 s2 b1 b2} => does_unique (cfg := cfg) (s := s) (s1 := s1) (s2 := s2) (b1 := b1) (b2 := b2)
      (hr n List.mem_cons_self) (hd n List.mem_cons_self)
    cases h1 with
    | ends h1 =>
      cases h2 with
      | ends h2 => exact u h1 h2
      | cons h2 _ => cases (u h1 h2).2
    | cons h1 h1' =>
      cases h2 with
      | ends h2 => cases (u h1 h2).2
      | cons h2 h2' =>
        obtain rfl := (u h1 h2).1
        exact doesAll_unique (fun n hn => hr n (List.mem_cons_of_mem _ hn)) (fun n hn => hd n (List.mem_cons_of_mem _ hn)) h1' h2'

section
variable [DecidableEq N] {x : Args.Ext F} {H : Host W F N} {cfg : Vm.Cfg W V Core.Place} {w : W} {t : Mime.Tree}

mutual
theorem stmt_unique : ∀ (c : Stmt (Script.Node F) (Script.Node F) (List UInt8)), (∀ k ∈ c.toks, Core.TokRead x k) →
    (∀ k ∈ c.toks, TokClear H w k) → ∀ {s s1 s2 : St F} {b1 b2 : Bool}, RunStmt H cfg w t c s s1 b1 → RunStmt H cfg w t c s s2 b2 →
      s1 = s2 ∧ b1 = b2
  | .act l, hr, hd, _, _, _, _, _, h1, h2 => by
    cases h1 with
    | act h1 =>
      cases h2 with
      | act h2 => exact doesAll_unique (hr (.act l) (by simp [Stmt.toks])) (hd (.act l) (by simp [Stmt.toks])) h1 h2
  | .cond c, hr, hd, _, _, _, _, _, h1, h2 => by
    cases h1 with
    | cond h1 =>
      cases h2 with
      | cond h2 => exact chain_unique true c hr hd h1 h2
  | .eval _, _, _, _, _, _, _, _, h1, _ => by cases h1
  | .vac _ _, _, _, _, _, _, _, _, h1, _ => by cases h1
  | .loop _ _ _, _, _, _, _, _, _, _, h1, _ => by cases h1
  | .parts _ _ _, _, _, _, _, _, _, _, h1, _ => by cases h1
  | .brk _, _, _, _, _, _, _, _, h1, _ => by cases h1
  | .cont, _, _, _, _, _, _, _, h1, _ => by cases h1
  | .ret, _, _, _, _, _, _, _, h1, _ => by cases h1
theorem block_unique : ∀ (l : Blk (Script.Node F) (Script.Node F) (List UInt8)), (∀ k ∈ l.toks, Core.TokRead x k) →
    (∀ k ∈ l.toks, TokClear H w k) → ∀ {s s1 s2 : St F} {b1 b2 : Bool}, RunBlk H cfg w t l s s1 b1 → RunBlk H cfg w t l s s2 b2 →
      s1 = s2 ∧ b1 = b2
  | .nil, _, _, _, _, _, _, _, h1, h2 => by cases h1; cases h2; exact ⟨rfl, rfl⟩
  | .cons c l, hr, hd, _, _, _, _, _, h1, h2 => by
    have u := fun {s s1 s2 b1 b2} => stmt_unique (s := s) (s1 := s1) (s2 := s2) (b1 := b1) (b2 := b2) c
      (fun k hk => hr k (by simp [Blk.toks, hk])) (fun k hk => hd k (by simp [Blk.toks, hk]))
    cases h1 with
    | ends h1 =>
      cases h2 with
      | ends h2 => exact u h1 h2
      | cons h2 _ => cases (u h1 h2).2
    | cons h1 h1' =>
      cases h2 with
      | ends h2 => cases (u h1 h2).2
      | cons h2 h2' =>
        obtain rfl := (u h1 h2).1
        exact block_unique l (fun k hk => hr k (by simp [Blk.toks, hk])) (fun k hk => hd k (by simp [Blk.toks, hk])) h1' h2'
theorem chain_unique (first : Bool) : ∀ (c : Chain (Script.Node F) (Script.Node F) (List UInt8)), (∀ k ∈ c.toks first, Core.TokRead x k) →
    (∀ k ∈ c.toks first, TokClear H w k) → ∀ {s s1 s2 : St F} {b1 b2 : Bool}, RunChain H cfg w t c s s1 b1 → RunChain H cfg w t c s s2 b2 →
      s1 = s2 ∧ b1 = b2
  | .one e b cl, hr, hd, _, _, _, _, _, h1, h2 => by
    cases h1 with
    | one h1 h1' =>
      cases h2 with
      | one h2 h2' => exact block_unique b (fun k hk => hr k (by simp [Chain.toks, hk])) (fun k hk => hd k (by simp [Chain.toks, hk])) h1' h2'
      | oneNot h2 => exact absurd h1 h2
    | oneNot h1 =>
      cases h2 with
      | one h2 _ => exact absurd h2 h1
      | oneNot _ => exact ⟨rfl, rfl⟩
  | .els e b cl c cl', hr, hd, _, _, _, _, _, h1, h2 => by
    cases h1 with
    | els h1 h1' =>
      cases h2 with
      | els h2 h2' => exact block_unique b (fun k hk => hr k (by simp [Chain.toks, hk])) (fun k hk => hd k (by simp [Chain.toks, hk])) h1' h2'
      | elsNot h2 => exact absurd h1 h2
    | elsNot h1 h1' =>
      cases h2 with
      | els h2 _ => exact absurd h2 h1
      | elsNot _ h2' => exact block_unique c (fun k hk => hr k (by simp [Chain.toks, hk])) (fun k hk => hd k (by simp [Chain.toks, hk])) h1' h2'
  | .elif e b cl c, hr, hd, _, _, _, _, _, h1, h2 => by
    cases h1 with
    | elif h1 h1' =>
      cases h2 with
      | elif h2 h2' => exact block_unique b (fun k hk => hr k (by simp [Chain.toks, hk])) (fun k hk => hd k (by simp [Chain.toks, hk])) h1' h2'
      | elifNot h2 => exact absurd h1 h2
    | elifNot h1 h1' =>
      cases h2 with
      | elif h2 _ => exact absurd h2 h1
      | elifNot _ h2' => exact chain_unique false c (fun k hk => hr k (by simp [Chain.toks, hk])) (fun k hk => hd k (by simp [Chain.toks, hk])) h1' h2'
end

end

/-- **C122** What a text with variables says is one thing: there is at most one list of actions. -/
theorem vars_unique [DecidableEq N] {lx : Lex.Ext Word F} {x : Args.Ext F} {text : List UInt8} {b : Whole.Prog F}
    (h : Whole.Structure lx x text b) {H : Host W F N} {cfg : Vm.Cfg W V Core.Place} {w : W} {t : Mime.Tree} (hd : ∀ k ∈ b.toks, TokClear H w k)
    {s1 s2 : St F} {f1 f2 : Bool} (h1 : RunBlk H cfg w t b (start H) s1 f1) (h2 : RunBlk H cfg w t b (start H) s2 f2) : s1 = s2 ∧ f1 = f2 :=
  block_unique b (Core.structure_read h) hd h1 h2

end Sieve.Vars
