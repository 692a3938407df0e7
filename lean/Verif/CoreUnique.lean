import Verif.CoreProps

/-!
# C121: what a script of the core language says is one thing
-/

namespace Sieve.Core

open Sieve.Args Sieve.Fields Sieve.Compile

variable {W V F N : Type}

/-- The time limits of a `redirect` are dates. -/
def Dated (H : Host W F N) (w : W) : Script.Node F → Prop
  | .cmd .Redirect g => ∀ v, (.ByTimeAbsolute, .val v) ∈ g.tags → ∃ n, H.time ((H.events w).eval v) = some n
  | _ => True

def TokDated (H : Host W F N) (w : W) : Compile.Tok (Script.Node F) (Script.Node F) (List UInt8) → Prop
  | .act l => ∀ n ∈ l, Dated H w n
  | _ => True

theorem flags_unique {H : Host W F N} {w : W} {g : Got F} {vs : List (Val F)} (h : Stores g [.Flags] Many [] vs) {a b : List String}
    (ha : FlagsAre H w g a) (hb : FlagsAre H w g b) : a = b := by
  obtain ⟨l, h1, h2, h3⟩ := ha
  obtain ⟨l', h1', h2', h3'⟩ := hb
  rw [Written.lists_iff h] at h1 h1'
  obtain rfl := h1.trans h1'.symm
  by_cases hl : l = []
  · rw [h3 hl, h3' hl]
  · obtain ⟨fs, h4, rfl⟩ := h2 hl
    obtain ⟨fs', h4', rfl⟩ := h2' hl
    rw [Written.flagsIn_iff] at h4 h4'
    rw [h4, h4']

theorem cut_unique {c : UInt8} : ∀ {p q r r' : List UInt8}, c ∉ p → c ∉ q → p ++ c :: r = q ++ c :: r' → p = q ∧ r = r'
  | [], [], _, _, _, _, h => by simpa using h
  | [], d :: q, _, _, _, hq, h => by
    simp only [List.nil_append, List.cons_append, List.cons.injEq] at h
    exact absurd (h.1 ▸ List.mem_cons_self) hq
  | d :: p, [], _, _, hp, _, h => by
    simp only [List.nil_append, List.cons_append, List.cons.injEq] at h
    exact absurd (h.1 ▸ List.mem_cons_self) hp
  | d :: p, d' :: q, _, _, hp, hq, h => by
    simp only [List.cons_append, List.cons.injEq] at h
    obtain ⟨rfl, h⟩ := h
    obtain ⟨rfl, e⟩ := cut_unique (fun h => hp (List.mem_cons_of_mem _ h)) (fun h => hq (List.mem_cons_of_mem _ h)) h
    exact ⟨rfl, e⟩

theorem between (p q : List UInt8) (ps : List (List UInt8)) :
    [(44 : UInt8)].intercalate (p :: q :: ps) = p ++ 44 :: [(44 : UInt8)].intercalate (q :: ps) := by
  simp [List.intercalate, List.intersperse]

theorem pieces_unique : ∀ {ps qs : List (List UInt8)} {s : List UInt8}, Pieces s ps → Pieces s qs → ps = qs
  | [], _, _, h, _ => absurd rfl h.1
  | _, [], _, _, h => absurd rfl h.1
  | [p], [q], _, ⟨_, _, h⟩, ⟨_, _, h'⟩ => by
    simp [List.intercalate] at h h'
    rw [← h, ← h']
  | [p], q :: q' :: qs, _, ⟨_, h1, h⟩, ⟨_, _, h'⟩ => by
    rw [between] at h'
    simp [List.intercalate] at h
    exact absurd (by rw [← h, h']; simp) (h1 p List.mem_cons_self)
  | p :: p' :: ps, [q], _, ⟨_, _, h⟩, ⟨_, h1, h'⟩ => by
    rw [between] at h
    simp [List.intercalate] at h'
    exact absurd (by rw [← h', h]; simp) (h1 q List.mem_cons_self)
  | p :: p' :: ps, q :: q' :: qs, _, ⟨_, h1, h⟩, ⟨_, h1', h'⟩ => by
    rw [between] at h h'
    obtain ⟨rfl, e⟩ := cut_unique (h1 p List.mem_cons_self) (h1' q List.mem_cons_self) (h.symm.trans h')
    rw [pieces_unique ⟨by simp, fun x hx => h1 x (List.mem_cons_of_mem _ hx), rfl⟩
      ⟨by simp, fun x hx => h1' x (List.mem_cons_of_mem _ hx), e⟩]

theorem name_unique {s : List UInt8} {i j : NotifyItem} (hi : ItemName s i) (hj : ItemName s j) : i = j := by
  cases hi <;> cases hj <;> first | rfl | (rename_i h h'; exfalso; revert h h'; simp [OneOf]; intro h; rw [h]; decide +kernel)

theorem items_unique {ps : List (List UInt8)} {is js : List NotifyItem} (hi : ItemsOf ps is) (hj : ItemsOf ps js) : is = js := by
  induction hi generalizing js with
  | nil => cases hj; rfl
  | item h _ ih =>
    cases hj with
    | item h' hj => rw [name_unique h h', ih hj]
    | other h' _ => exact absurd h (h' _)
  | other h _ ih =>
    cases hj with
    | item h' _ => exact absurd h' (h _)
    | other _ hj => exact ih hj

theorem dsn_unique (w : Word) (r : Arg F) (a b : Dsn) (ha : DsnMeans w r a) (hb : DsnMeans w r b) : a = b := by
  have key : ∀ {s ps is}, OneOf ["never"] s → Pieces s ps → ItemsOf ps is → is = [] := by
    intro s ps is h1 h2 h3
    have h1 : lower s = bytes "never" := by simpa [OneOf] using h1
    have hc : (44 : UInt8) ∉ s := by
      intro h
      have : (44 : UInt8) ∈ lower s := List.mem_map.2 ⟨44, h, by decide⟩
      rw [h1] at this
      revert this
      decide +kernel
    obtain rfl : ps = [s] := pieces_unique h2 ⟨by simp, by simpa using hc, by simp [List.intercalate]⟩
    have hl : s.length = 5 := by
      have := congrArg List.length h1
      rw [lower, List.length_map] at this
      rw [this]
      decide +kernel
    have ht : (trim s).Sublist s := by
      unfold trim
      have h := (List.dropWhile_sublist (fun c : UInt8 => c = 32 || (9 ≤ c && c ≤ 13))
        (l := (s.dropWhile (fun c : UInt8 => c = 32 || (9 ≤ c && c ≤ 13))).reverse)).reverse
      rw [List.reverse_reverse] at h
      exact h.trans (List.dropWhile_sublist _)
    cases h3 with
    | other _ h => cases h; rfl
    | @item _ i _ _ h _ =>
      exfalso
      have hlen : ∀ {n : String}, OneOf [n] (trim s) → (bytes n).length = 5 → bytes n = bytes "never" := by
        intro n hn hn5
        have hn : lower (trim s) = bytes n := by simpa [OneOf] using hn
        have : (trim s).length = 5 := by
          have := congrArg List.length hn
          rw [lower, List.length_map, hn5] at this
          exact this
        rw [ht.eq_of_length (this.trans hl.symm)] at hn
        rw [← hn, h1]
      have hle : ∀ {n : String}, OneOf [n] (trim s) → (bytes n).length ≤ 5 := by
        intro n hn
        have hn : lower (trim s) = bytes n := by simpa [OneOf] using hn
        rw [← hn, lower, List.length_map, ← hl]
        exact ht.length_le
      cases h with
      | success h => exact absurd (hle h) (by decide +kernel)
      | failure h => exact absurd (hle h) (by decide +kernel)
      | delay h => exact absurd (hlen h (by decide +kernel)) (by decide +kernel)
  cases ha with
  | never ha =>
    cases hb with
    | never _ => rfl
    | items h1 h2 h3 => exact absurd (key ha h1 h2) h3
  | items h1 h2 h3 =>
    cases hb with
    | never hb => exact absurd (key hb h1 h2) h3
    | items h1' h2' h3' =>
      obtain rfl := pieces_unique h1 h1'
      rw [items_unique h2 h2']

theorem bool_unique {a b : Bool} {p : Prop} (ha : a = true ↔ p) (hb : b = true ↔ p) : a = b :=
  Bool.eq_iff_iff.2 (ha.trans hb.symm)

theorem goes_unique {S : Type} {H : Host S F N} {cfg : Vm.Cfg W V Place} {w : S} {g : Got F} {n : St} {a b : Event.Text}
    (ha : Goes H cfg w g n a) (hb : Goes H cfg w g n b) : a = b := by
  obtain ⟨v, t, h1, h2, h3⟩ := ha.address
  obtain ⟨v', t', h1', h2', h3'⟩ := hb.address
  rw [h1] at h1'
  simp only [List.cons.injEq, Arg.val.injEq, and_true] at h1'
  subst h1'
  rw [h2] at h3
  rw [h2', h3] at h3'
  injection h3'

theorem time_unique {H : Host W F N} {w : W} {g : Got F} {i : ByTime (Val F)} (hi : TimeIs g i) (hd : Dated H w (.cmd .Redirect g))
    {a b : ByTime Int} (ha : Event.TimeSent (H.events w) g a) (hb : Event.TimeSent (H.events w) g b) : a = b := by
  have mode : ∀ w (r : Arg F) a b, ModeMeans w r a → ModeMeans w r b → a = b := by
    intro w r a b h1 h2
    cases h1 <;> cases h2 <;> first | rfl | (rename_i h h'; exfalso; revert h h'; simp [OneOf]; intro h; rw [h]; decide +kernel)
  have flag : ∀ (w : Word) (r : Arg F) a b, Flag w r a → Flag w r b → a = b := by
    rintro w r a b ⟨-, rfl⟩ ⟨-, rfl⟩
    rfl
  by_cases h1 : Uses g .ByTimeAbsolute
  · obtain ⟨x, hx⟩ := h1
    obtain ⟨v, m, f, rfl, -, -, -⟩ := hi.absolute _ hx
    obtain ⟨n, hn⟩ := hd v hx
    obtain ⟨m1, f1, rfl, h2, h3⟩ := ha.absolute v hx n hn
    obtain ⟨m2, f2, rfl, h4, h5⟩ := hb.absolute v hx n hn
    rw [Written.stores_unique mode h2 h4, Written.stores_unique flag h3 h5]
  · by_cases h2 : Uses g .ByTimeRelative
    · obtain ⟨x, hx⟩ := h2
      obtain ⟨n, m, f, rfl, -, -, -⟩ := hi.relative _ hx
      obtain ⟨m1, f1, rfl, h2, h3⟩ := ha.relative n hx
      obtain ⟨m2, f2, rfl, h4, h5⟩ := hb.relative n hx
      rw [Written.stores_unique mode h2 h4, Written.stores_unique flag h3 h5]
    · rw [ha.none h1 h2, hb.none h1 h2]

theorem does_unique {S : Type} {x : Args.Ext F} {H : Host S F N} {cfg : Vm.Cfg W V Place} {w : S} {n : Script.Node F} (hr : Read x n)
    (hd : Dated H w n) {s s1 s2 : St} {b1 b2 : Bool} (h1 : Does H cfg w n s s1 b1) (h2 : Does H cfg w n s s2 b2) : s1 = s2 ∧ b1 = b2 := by
  cases h1 with
  | require => cases h2; exact ⟨rfl, rfl⟩
  | discard => cases h2; exact ⟨rfl, rfl⟩
  | stop => cases h2; exact ⟨rfl, rfl⟩
  | keep h1 =>
    cases h2 with
    | keep h2 =>
      obtain ⟨e, has, ts, r, he, hr⟩ := hr
      rw [flags_unique (keep_stores he hr) h1 h2]
      exact ⟨rfl, rfl⟩
  | fileinto h1 h1' h1'' =>
    cases h2 with
    | fileinto h2 h2' h2'' =>
      obtain ⟨e, has, ts, r, he, hr⟩ := hr
      obtain ⟨i, -, -, -, -, k5, k6, k7⟩ := fileinto_fields x has he hr
      obtain ⟨v, nm, mid, su, cr, f1, rfl, f2, f3, f4, f5⟩ := h1
      obtain ⟨v', nm', mid', su', cr', g1, rfl, g2, g3, g4, g5⟩ := h2
      rw [f1] at g1
      simp only [List.cons.injEq, Arg.val.injEq, and_true] at g1
      subst g1
      rw [Written.says_iff k6] at f3 g3
      rw [Written.says_iff k7] at f4 g4
      have : nm = nm' := by rw [f2, g2]
      rw [flags_unique k5 h1' h2', bool_unique h1'' h2'', this, f3, g3, f4, g4, bool_unique f5 g5]
      exact ⟨rfl, rfl⟩
  | redirect h1 h1' h1'' =>
    cases h2 with
    | stays h2 => exact absurd ⟨_, h1⟩ h2
    | redirect h2 h2' h2'' =>
      obtain rfl := goes_unique h1 h2
      obtain ⟨e, has, ts, r, he, hr⟩ := hr
      obtain ⟨i, -, -, -, -, k5, k6, k7⟩ := redirect_fields_partial x has he hr
      obtain ⟨d, rt, t, rfl, f1, f2, f3⟩ := h1'
      obtain ⟨d', rt', t', rfl, g1, g2, g3⟩ := h2'
      have ret : ∀ w (r : Arg F) a b, RetMeans w r a → RetMeans w r b → a = b := by
        intro w r a b h1 h2
        cases h1 <;> cases h2 <;> first | rfl | (rename_i h h'; exfalso; revert h h'; simp [OneOf]; intro h; rw [h]; decide +kernel)
      rw [bool_unique h1'' h2'', Written.stores_unique dsn_unique f1 g1, Written.stores_unique ret f2 g2, time_unique k7 hd f3 g3]
      exact ⟨rfl, rfl⟩
  | reject h1 h1' =>
    cases h2 with
    | reject h2 h2' =>
      rw [h1] at h2
      simp only [List.cons.injEq, Arg.val.injEq, and_true] at h2
      subst h2
      rw [Written.TextOf] at h1' h2'
      rw [h1', h2']
      exact ⟨rfl, rfl⟩
  | ereject h1 h1' =>
    cases h2 with
    | ereject h2 h2' =>
      rw [h1] at h2
      simp only [List.cons.injEq, Arg.val.injEq, and_true] at h2
      subst h2
      rw [Written.TextOf] at h1' h2'
      rw [h1', h2']
      exact ⟨rfl, rfl⟩
  | stays h1 =>
    cases h2 with
    | stays h2 => exact ⟨rfl, rfl⟩
    | redirect h2 => exact absurd ⟨_, h2⟩ h1

theorem doesAll_unique {x : Args.Ext F} {H : Host W F N} {cfg : Vm.Cfg W V Place} {w : W} : ∀ {l : List (Script.Node F)},
    (∀ n ∈ l, Read x n) → (∀ n ∈ l, Dated H w n) → ∀ {s s1 s2 : St} {b1 b2 : Bool}, DoesAll H cfg w l s s1 b1 → DoesAll H cfg w l s s2 b2 →
      s1 = s2 ∧ b1 = b2
  | [], _, _, _, _, _, _, _, h1, h2 => by cases h1; cases h2; exact ⟨rfl, rfl⟩
  | n :: l, hr, hd, _, _, _, _, _, h1, h2 => by
    have u := fun {s s1 s2 b1 b2} => does_unique (cfg := cfg) (s := s) (s1 := s1) (s2 := s2) (b1 := b1) (b2 := b2)
      (hr n List.mem_cons_self) (hd n List.mem_cons_self)
    cases h1 with
    | ends h1 =>
      cases h2 with
      | ends h2 => exact u h1 h2
      | cons h2 _ => cases (u h1 h2).2
    | cons h1 h1' =>
      cases h2 with
      | ends h2 => cases (u h1 h2).2
      | cons h2 h2' =>
        obtain rfl := (u h1 h2).1
        exact doesAll_unique (fun n hn => hr n (List.mem_cons_of_mem _ hn)) (fun n hn => hd n (List.mem_cons_of_mem _ hn)) h1' h2'

section
variable [DecidableEq N] {x : Args.Ext F} {H : Host W F N} {cfg : Vm.Cfg W V Place} {w : W} {t : Mime.Tree}

mutual
theorem stmt_unique : ∀ (c : Stmt (Script.Node F) (Script.Node F) (List UInt8)), (∀ k ∈ c.toks, TokRead x k) →
    (∀ k ∈ c.toks, TokDated H w k) → ∀ {s s1 s2 : St} {b1 b2 : Bool}, RunStmt H cfg w t c s s1 b1 → RunStmt H cfg w t c s s2 b2 →
      s1 = s2 ∧ b1 = b2
  | .act l, hr, hd, _, _, _, _, _, h1, h2 => by
    cases h1 with
    | act h1 =>
      cases h2 with
      | act h2 => exact doesAll_unique (hr (.act l) (by simp [Stmt.toks])) (hd (.act l) (by simp [Stmt.toks])) h1 h2
  | .cond c, hr, hd, _, _, _, _, _, h1, h2 => by
    cases h1 with
    | cond h1 =>
      cases h2 with
      | cond h2 => exact chain_unique true c hr hd h1 h2
  | .eval _, _, _, _, _, _, _, _, h1, _ => by cases h1
  | .vac _ _, _, _, _, _, _, _, _, h1, _ => by cases h1
  | .loop _ _ _, _, _, _, _, _, _, _, h1, _ => by cases h1
  | .parts _ _ _, _, _, _, _, _, _, _, h1, _ => by cases h1
  | .brk _, _, _, _, _, _, _, _, h1, _ => by cases h1
  | .cont, _, _, _, _, _, _, _, h1, _ => by cases h1
  | .ret, _, _, _, _, _, _, _, h1, _ => by cases h1
theorem block_unique : ∀ (l : Blk (Script.Node F) (Script.Node F) (List UInt8)), (∀ k ∈ l.toks, TokRead x k) →
    (∀ k ∈ l.toks, TokDated H w k) → ∀ {s s1 s2 : St} {b1 b2 : Bool}, RunBlk H cfg w t l s s1 b1 → RunBlk H cfg w t l s s2 b2 →
      s1 = s2 ∧ b1 = b2
  | .nil, _, _, _, _, _, _, _, h1, h2 => by cases h1; cases h2; exact ⟨rfl, rfl⟩
  | .cons c l, hr, hd, _, _, _, _, _, h1, h2 => by
    have u := fun {s s1 s2 b1 b2} => stmt_unique (s := s) (s1 := s1) (s2 := s2) (b1 := b1) (b2 := b2) c
      (fun k hk => hr k (by simp [Blk.toks, hk])) (fun k hk => hd k (by simp [Blk.toks, hk]))
    cases h1 with
    | ends h1 =>
      cases h2 with
      | ends h2 => exact u h1 h2
      | cons h2 _ => cases (u h1 h2).2
    | cons h1 h1' =>
      cases h2 with
      | ends h2 => cases (u h1 h2).2
      | cons h2 h2' =>
        obtain rfl := (u h1 h2).1
        exact block_unique l (fun k hk => hr k (by simp [Blk.toks, hk])) (fun k hk => hd k (by simp [Blk.toks, hk])) h1' h2'
theorem chain_unique (first : Bool) : ∀ (c : Chain (Script.Node F) (Script.Node F) (List UInt8)), (∀ k ∈ c.toks first, TokRead x k) →
    (∀ k ∈ c.toks first, TokDated H w k) → ∀ {s s1 s2 : St} {b1 b2 : Bool}, RunChain H cfg w t c s s1 b1 → RunChain H cfg w t c s s2 b2 →
      s1 = s2 ∧ b1 = b2
  | .one e b cl, hr, hd, _, _, _, _, _, h1, h2 => by
    cases h1 with
    | one h1 h1' =>
      cases h2 with
      | one h2 h2' => exact block_unique b (fun k hk => hr k (by simp [Chain.toks, hk])) (fun k hk => hd k (by simp [Chain.toks, hk])) h1' h2'
      | oneNot h2 => exact absurd h1 h2
    | oneNot h1 =>
      cases h2 with
      | one h2 _ => exact absurd h2 h1
      | oneNot _ => exact ⟨rfl, rfl⟩
  | .els e b cl c cl', hr, hd, _, _, _, _, _, h1, h2 => by
    cases h1 with
    | els h1 h1' =>
      cases h2 with
      | els h2 h2' => exact block_unique b (fun k hk => hr k (by simp [Chain.toks, hk])) (fun k hk => hd k (by simp [Chain.toks, hk])) h1' h2'
      | elsNot h2 => exact absurd h1 h2
    | elsNot h1 h1' =>
      cases h2 with
      | els h2 _ => exact absurd h2 h1
      | elsNot _ h2' => exact block_unique c (fun k hk => hr k (by simp [Chain.toks, hk])) (fun k hk => hd k (by simp [Chain.toks, hk])) h1' h2'
  | .elif e b cl c, hr, hd, _, _, _, _, _, h1, h2 => by
    cases h1 with
    | elif h1 h1' =>
      cases h2 with
      | elif h2 h2' => exact block_unique b (fun k hk => hr k (by simp [Chain.toks, hk])) (fun k hk => hd k (by simp [Chain.toks, hk])) h1' h2'
      | elifNot h2 => exact absurd h1 h2
    | elifNot h1 h1' =>
      cases h2 with
      | elif h2 _ => exact absurd h2 h1
      | elifNot _ h2' => exact chain_unique false c (fun k hk => hr k (by simp [Chain.toks, hk])) (fun k hk => hd k (by simp [Chain.toks, hk])) h1' h2'
end

end

/-- **C121** What a text of the core language says is one thing: there is at most one list of actions. -/
theorem core_unique [DecidableEq N] {lx : Lex.Ext Word F} {x : Args.Ext F} {text : List UInt8} {b : Whole.Prog F}
    (h : Whole.Structure lx x text b) {H : Host W F N} {cfg : Vm.Cfg W V Place} {w : W} {t : Mime.Tree} (hd : ∀ k ∈ b.toks, TokDated H w k)
    {s1 s2 : St} {f1 f2 : Bool} (h1 : RunBlk H cfg w t b ⟨0, []⟩ s1 f1) (h2 : RunBlk H cfg w t b ⟨0, []⟩ s2 f2) : s1 = s2 ∧ f1 = f2 :=
  block_unique b (structure_read h) hd h1 h2

end Sieve.Core
