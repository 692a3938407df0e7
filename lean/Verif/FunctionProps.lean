import Verif.FunctionModel
import Mathlib.Data.List.Induction

/-!
# C105: a call reaches the function registered under its name
-/

namespace Sieve.Func

open Sieve.Expr

variable {X K V F : Type}

/-! ## Specification -/

/-- What the last registration of a name says. -/
inductive Target (F : Type) where
  | fn (f : F)
  | ext (id : Nat)

/-- The last registration of a name with the number of its arguments; the last one is the first of the list. -/
def latest (name : Name) : List (Reg F) → Option (Target F × Nat)
  | [] => none
  | .fn n f k :: rs => if n = name then some (.fn f, k) else latest name rs
  | .ext n id k :: rs => if n = name then some (.ext id, k) else latest name rs

mutual
/-- Expressions with the names of functions. -/
inductive NEx (X K : Type) where
  | var (x : X)
  | lit (k : K)
  | un (o : UnOp) (e : NEx X K)
  | bin (o : BinOp) (a b : NEx X K)
  | call (name : Name) (es : NExs X K)
  | index (a i : NEx X K)
  | build (es : NExs X K)
inductive NExs (X K : Type) where
  | nil
  | cons (e : NEx X K) (es : NExs X K)
end

def NExs.length : NExs X K → Nat
  | .nil => 0
  | .cons _ es => es.length + 1

mutual
/-- Every function called is registered, with as many arguments as it is called with. -/
def NEx.Known (regs : List (Reg F)) : NEx X K → Prop
  | .var _ | .lit _ => True
  | .un _ e => e.Known regs
  | .bin _ a b => a.Known regs ∧ b.Known regs
  | .call n es => es.Known regs ∧ ∃ t, latest n regs.reverse = some (t, es.length)
  | .index a i => a.Known regs ∧ i.Known regs
  | .build es => es.Known regs
def NExs.Known (regs : List (Reg F)) : NExs X K → Prop
  | .nil => True
  | .cons e es => e.Known regs ∧ es.Known regs
end

mutual
/-- The meaning of an expression (see `Ex.meaning`): a call is one of the function last registered under the name; the
functions of the host get the number they were registered with.  Of `E` everything but the functions is used. -/
def NEx.meaning (regs : List (Reg (List V → V))) (E : Env X K V) : NEx X K → Act V
  | .var x => .ret (E.var x)
  | .lit k => .ret (E.lit k)
  | .un o e => (e.meaning regs E).bind fun v => .ret (E.un o v)
  | .bin o a b =>
    (a.meaning regs E).bind fun x =>
      match o with
      | .and => if E.toBool x then (b.meaning regs E).bind fun y => .ret (E.bin .and x y) else .ret x
      | .or => if E.toBool x then .ret x else (b.meaning regs E).bind fun y => .ret (E.bin .or x y)
      | o => (b.meaning regs E).bind fun y => .ret (E.bin o x y)
  | .call n es =>
    es.meanings regs E fun vs =>
      match latest n regs.reverse with
      | some (.fn f, _) => .ret (f vs)
      | some (.ext id, _) => .call id vs .ret
      | none => .ret E.dflt
  | .index a i => (a.meaning regs E).bind fun x => (i.meaning regs E).bind fun y => .ret (E.access x y)
  | .build es => es.meanings regs E fun vs => .ret (E.build vs)
def NExs.meanings (regs : List (Reg (List V → V))) (E : Env X K V) : NExs X K → (List V → Act V) → Act V
  | .nil, f => f []
  | .cons e es, f => (e.meaning regs E).bind fun v => es.meanings regs E fun vs => f (v :: vs)
end

/-- The number of functions registered that are not of the host. -/
def own (regs : List (Reg F)) : Nat := regs.countP fun r => match r with | .fn .. => true | .ext .. => false

/-- The numbers leave room for each other: together there are fewer than `u32` has room for. -/
def Fits (regs : List (Reg F)) : Prop :=
  own regs ≤ idExternal ∧ ∀ n id k, Reg.ext n id k ∈ regs → id + own regs ≤ idExternal

/-! ## Names as the compiler reads them -/

mutual
/-- The expression with the numbers the compiler knows the functions by. -/
def NEx.resolve (map : Name → Option (Nat × Nat)) : NEx X K → Option (Ex X K)
  | .var x => some (.var x)
  | .lit k => some (.lit k)
  | .un o e => (e.resolve map).map (.un o)
  | .bin o a b => (a.resolve map).bind fun a => (b.resolve map).map (.bin o a)
  | .call n es =>
    (es.resolve map).bind fun es' =>
      match map n with
      | some (id, k) => if es.length = k then some (.call id es') else none
      | none => none
  | .index a i => (a.resolve map).bind fun a => (i.resolve map).map (.index a)
  | .build es => (es.resolve map).map .build
def NExs.resolve (map : Name → Option (Nat × Nat)) : NExs X K → Option (Exs X K)
  | .nil => some .nil
  | .cons e es => (e.resolve map).bind fun e => (es.resolve map).map (.cons e)
end

/-! ## Proofs -/

theorem build_snoc (regs : List (Reg F)) (r : Reg F) : FMap.build (regs ++ [r]) = (FMap.build regs).add r := by
  simp [FMap.build, List.foldl_append]

theorem own_snoc (regs : List (Reg F)) (r : Reg F) :
    own (regs ++ [r]) = own regs + match r with | .fn .. => 1 | .ext .. => 0 := by
  cases r <;> simp [own]

theorem build_length (regs : List (Reg F)) : (FMap.build regs).fns.length = own regs := by
  induction regs using List.reverseRecOn with
  | nil => rfl
  | append_singleton rs r ih =>
    rw [build_snoc, own_snoc]
    cases r <;> simp [FMap.add, ih]

/-- What the map says about a name. -/
theorem build_lookup (regs : List (Reg F)) (hf : Fits regs) (n : Name) :
    match latest n regs.reverse with
    | none => (FMap.build regs).map n = none
    | some (.fn f, k) => ∃ id, (FMap.build regs).map n = some (id, k) ∧ id < own regs ∧ (FMap.build regs).fns[id]? = some f
    | some (.ext id, k) => (FMap.build regs).map n = some (idExternal - id, k) ∧ id ≤ idExternal ∧ own regs ≤ idExternal - id := by
  have h32 : idExternal < 2 ^ 32 := by decide
  suffices H : ∀ (pre post : List (Reg F)), regs = pre ++ post →
      match latest n pre.reverse with
      | none => (FMap.build pre).map n = none
      | some (.fn f, k) => ∃ id, (FMap.build pre).map n = some (id, k) ∧ id < own regs ∧ (FMap.build pre).fns[id]? = some f
      | some (.ext id, k) => (FMap.build pre).map n = some (idExternal - id, k) ∧ id ≤ idExternal ∧ own regs ≤ idExternal - id from
    H regs [] (by simp)
  intro pre
  induction pre using List.reverseRecOn with
  | nil => intro post _; rfl
  | append_singleton rs r ih =>
    intro post he
    have ih := ih (r :: post) (by simpa using he)
    have hown : own (rs ++ [r]) ≤ own regs := by
      rw [he]
      simp only [own, List.countP_append]
      omega
    rw [own_snoc] at hown
    rw [List.reverse_append, List.reverse_singleton, List.singleton_append, build_snoc]
    have hlen := build_length rs
    cases r with
    | fn m f k =>
      simp only [latest, FMap.add, insert]
      by_cases hm : m = n
      · subst hm
        simp only [if_true]
        simp only at hown
        refine ⟨own rs, ?_, by omega, ?_⟩
        · rw [hlen, u32, Nat.mod_eq_of_lt (by have := hf.1; omega)]
        · rw [← hlen]; simp
      · rw [if_neg hm]
        have hm' : ¬ n = m := fun e => hm e.symm
        cases hl : latest n rs.reverse with
        | none => rw [hl] at ih; simp only [hm', if_false]; exact ih
        | some t =>
          obtain ⟨t, k'⟩ := t
          rw [hl] at ih
          cases t with
          | fn g =>
            obtain ⟨id, h1, h2, h3⟩ := ih
            refine ⟨id, by simp only [hm', if_false]; exact h1, h2, ?_⟩
            rw [List.getElem?_append_left (List.getElem?_eq_some_iff.1 h3).1]
            exact h3
          | ext id => simp only [hm', if_false]; exact ih
    | ext m id k =>
      simp only [latest, FMap.add, insert]
      by_cases hm : m = n
      · subst hm
        have h := hf.2 m id k (by rw [he]; simp)
        simp only [if_true]
        refine ⟨?_, by omega, by omega⟩
        rw [sub32, u32, show idExternal + 2 ^ 32 - id = (idExternal - id) + 2 ^ 32 from by omega, Nat.add_mod_right,
          Nat.mod_eq_of_lt (by omega)]
      · rw [if_neg hm]
        have hm' : ¬ n = m := fun e => hm e.symm
        cases hl : latest n rs.reverse with
        | none => rw [hl] at ih; simp only [hm', if_false]; exact ih
        | some t =>
          obtain ⟨t, k'⟩ := t
          rw [hl] at ih
          cases t with
          | fn g => simp only [hm', if_false]; exact ih
          | ext id' => simp only [hm', if_false]; exact ih

theorem resolve_length (map : Name → Option (Nat × Nat)) : ∀ {es : NExs X K} {es' : Exs X K}, es.resolve map = some es' → es'.length = es.length
  | .nil, es', h => by
    simp only [NExs.resolve, Option.some.injEq] at h
    subst h; rfl
  | .cons e es, es', h => by
    simp only [NExs.resolve, Option.bind_eq_some_iff, Option.map_eq_some_iff] at h
    obtain ⟨e', _, es1, h1, rfl⟩ := h
    simp [Exs.length, NExs.length, resolve_length map h1]

mutual
theorem known_resolve (regs : List (Reg F)) (hf : Fits regs) : ∀ (e : NEx X K),
    e.Known regs ↔ ∃ e', e.resolve (FMap.build regs).map = some e'
  | .var x => by simp [NEx.Known, NEx.resolve]
  | .lit k => by simp [NEx.Known, NEx.resolve]
  | .un o e => by
    have := known_resolve regs hf e
    simp only [NEx.Known, NEx.resolve, this, Option.map_eq_some_iff]
    constructor
    · rintro ⟨e', h⟩; exact ⟨_, _, h, rfl⟩
    · rintro ⟨_, e', h, _⟩; exact ⟨e', h⟩
  | .bin o a b => by
    have h1 := known_resolve regs hf a
    have h2 := known_resolve regs hf b
    simp only [NEx.Known, NEx.resolve, h1, h2, Option.map_eq_some_iff, Option.bind_eq_some_iff]
    constructor
    · rintro ⟨⟨a', ha⟩, b', hb⟩; exact ⟨_, a', ha, b', hb, rfl⟩
    · rintro ⟨_, a', ha, b', hb, _⟩; exact ⟨⟨a', ha⟩, b', hb⟩
  | .index a b => by
    have h1 := known_resolve regs hf a
    have h2 := known_resolve regs hf b
    simp only [NEx.Known, NEx.resolve, h1, h2, Option.map_eq_some_iff, Option.bind_eq_some_iff]
    constructor
    · rintro ⟨⟨a', ha⟩, b', hb⟩; exact ⟨_, a', ha, b', hb, rfl⟩
    · rintro ⟨_, a', ha, b', hb, _⟩; exact ⟨⟨a', ha⟩, b', hb⟩
  | .build es => by
    have := knowns_resolve regs hf es
    simp only [NEx.Known, NEx.resolve, this, Option.map_eq_some_iff]
    constructor
    · rintro ⟨e', h⟩; exact ⟨_, _, h, rfl⟩
    · rintro ⟨_, e', h, _⟩; exact ⟨e', h⟩
  | .call n es => by
    have h1 := knowns_resolve regs hf es
    have h2 := build_lookup regs hf n
    simp only [NEx.Known, NEx.resolve, h1, Option.bind_eq_some_iff]
    cases hl : latest n regs.reverse with
    | none =>
      rw [hl] at h2
      simp only at h2
      simp [h2]
    | some t =>
      obtain ⟨t, k⟩ := t
      rw [hl] at h2
      obtain ⟨id, hid⟩ : ∃ id, (FMap.build regs).map n = some (id, k) := by
        cases t with
        | fn f => obtain ⟨id, h, _⟩ := h2; exact ⟨id, h⟩
        | ext id => exact ⟨_, h2.1⟩
      simp only [hid, Option.some.injEq, Prod.mk.injEq]
      constructor
      · rintro ⟨⟨es', h⟩, _, _, rfl⟩
        exact ⟨_, es', h, by rw [if_pos rfl]⟩
      · rintro ⟨e', es', h, he⟩
        split at he
        · rename_i hk
          exact ⟨⟨es', h⟩, t, rfl, hk.symm⟩
        · simp at he
theorem knowns_resolve (regs : List (Reg F)) (hf : Fits regs) : ∀ (es : NExs X K),
    es.Known regs ↔ ∃ es', es.resolve (FMap.build regs).map = some es'
  | .nil => by simp [NExs.Known, NExs.resolve]
  | .cons e es => by
    have h1 := known_resolve regs hf e
    have h2 := knowns_resolve regs hf es
    simp only [NExs.Known, NExs.resolve, h1, h2, Option.map_eq_some_iff, Option.bind_eq_some_iff]
    constructor
    · rintro ⟨⟨a', ha⟩, b', hb⟩; exact ⟨_, a', ha, b', hb, rfl⟩
    · rintro ⟨_, a', ha, b', hb, _⟩; exact ⟨⟨a', ha⟩, b', hb⟩
end

/-- The environment with the functions of a runtime. -/
def withFns (E : Env X K V) (fns : List (List V → V)) : Env X K V := { E with func := fun id => fns[id]? }

mutual
theorem resolve_meaning (regs : List (Reg (List V → V))) (hf : Fits regs) (E : Env X K V) : ∀ (e : NEx X K) (e' : Ex X K),
    e.resolve (FMap.build regs).map = some e' → e'.meaning (withFns E (FMap.build regs).fns) = e.meaning regs E
  | .var x, e', h => by
    simp only [NEx.resolve, Option.some.injEq] at h
    subst h; simp [Ex.meaning, NEx.meaning, withFns]
  | .lit k, e', h => by
    simp only [NEx.resolve, Option.some.injEq] at h
    subst h; simp [Ex.meaning, NEx.meaning, withFns]
  | .un o e, e', h => by
    simp only [NEx.resolve, Option.map_eq_some_iff] at h
    obtain ⟨a, ha, rfl⟩ := h
    rw [Ex.meaning, NEx.meaning, resolve_meaning regs hf E e a ha]
    rfl
  | .bin o a b, e', h => by
    simp only [NEx.resolve, Option.bind_eq_some_iff, Option.map_eq_some_iff] at h
    obtain ⟨a', ha, b', hb, rfl⟩ := h
    rw [Ex.meaning, NEx.meaning, resolve_meaning regs hf E a a' ha, resolve_meaning regs hf E b b' hb]
    rfl
  | .index a b, e', h => by
    simp only [NEx.resolve, Option.bind_eq_some_iff, Option.map_eq_some_iff] at h
    obtain ⟨a', ha, b', hb, rfl⟩ := h
    rw [Ex.meaning, NEx.meaning, resolve_meaning regs hf E a a' ha, resolve_meaning regs hf E b b' hb]
    rfl
  | .build es, e', h => by
    simp only [NEx.resolve, Option.map_eq_some_iff] at h
    obtain ⟨a, ha, rfl⟩ := h
    rw [Ex.meaning, NEx.meaning, resolve_meanings regs hf E es a ha]
    rfl
  | .call n es, e', h => by
    simp only [NEx.resolve, Option.bind_eq_some_iff] at h
    obtain ⟨es', hes, h⟩ := h
    have h2 := build_lookup regs hf n
    rw [NEx.meaning]
    cases hl : latest n regs.reverse with
    | none =>
      rw [hl] at h2
      simp only at h2
      rw [h2] at h
      simp at h
    | some t =>
      obtain ⟨t, k⟩ := t
      rw [hl] at h2
      cases t with
      | fn f =>
        obtain ⟨id, h3, _, h4⟩ := h2
        rw [h3] at h
        simp only at h
        split at h
        · simp only [Option.some.injEq] at h
          subst h
          rw [Ex.meaning, resolve_meanings regs hf E es es' hes]
          simp only [withFns, h4]
        · simp at h
      | ext id =>
        obtain ⟨h3, h5, h6⟩ := h2
        rw [h3] at h
        simp only at h
        split at h
        · simp only [Option.some.injEq] at h
          subst h
          rw [Ex.meaning, resolve_meanings regs hf E es es' hes]
          have : (FMap.build regs).fns[idExternal - id]? = none := by
            rw [List.getElem?_eq_none_iff, build_length]
            exact h6
          simp only [withFns, this]
          rw [show idExternal - (idExternal - id) = id from by omega]
        · simp at h
theorem resolve_meanings (regs : List (Reg (List V → V))) (hf : Fits regs) (E : Env X K V) : ∀ (es : NExs X K) (es' : Exs X K),
    es.resolve (FMap.build regs).map = some es' → es'.meanings (withFns E (FMap.build regs).fns) = es.meanings regs E
  | .nil, es', h => by
    simp only [NExs.resolve, Option.some.injEq] at h
    subst h
    funext f
    rw [Exs.meanings, NExs.meanings]
  | .cons e es, es', h => by
    simp only [NExs.resolve, Option.bind_eq_some_iff, Option.map_eq_some_iff] at h
    obtain ⟨a', ha, b', hb, rfl⟩ := h
    funext f
    rw [Exs.meanings, NExs.meanings, resolve_meaning regs hf E e a' ha, resolve_meanings regs hf E es b' hb]
end

/-- **C105 (1).** For functions registered in any order, with the compiler and the runtime made from the same map: an
expression is read exactly if all functions it calls are registered for this number of arguments, and then every call
reaches the function registered last under its name, with its arguments; a function of the host is called by the number it
was registered with.
The full claim would not assume `Fits`: numbers of functions of the host can collide (`external_collides`, `external_wraps`, `second_runtime`). -/
theorem call_by_name_partial (regs : List (Reg (List V → V))) (hf : Fits regs) (e : NEx X K) :
    let m := FMap.build regs
    let names := m.compiler.1
    let fns := m.compiler.2.runtime.1
    (e.Known regs ↔ ∃ e', e.resolve names = some e') ∧
    ∀ (e' : Ex X K) (ts : List (Tok X K)), e.resolve names = some e' → G true 1 ts e' →
      ∃ code, parse ts = .ok code ∧ ∀ (E : Env X K V) (answers : List V),
        playCode (withFns E fns) code (0, []) answers = (e.meaning regs E).play answers := by
  refine ⟨known_resolve regs hf e, fun e' ts h hg => ?_⟩
  obtain ⟨code, hc, hp⟩ := precedence_partial hg
  refine ⟨code, hc, fun E as => ?_⟩
  show playCode (withFns E (FMap.build regs).fns) code (0, []) as = _
  rw [hp, resolve_meaning regs hf E e e' h]

theorem args_parsed {d : Bool} {ts : List (Tok X K)} {es : Exs X K} (h : Args true d ts es) : ∀ {k : Int} {args : List Int}
    {id n : Nat} {ops : List Ent} (s : PState X K), id ≠ idBuild → s.ops = .popen :: .func id n :: ops → s.args = k :: args →
    s.last = false → ∃ s' pend out, psteps s ts = .ok s' ∧ s'.ops = pend ++ .popen :: .func id n :: ops ∧
      s'.args = (k + es.length) :: args ∧ Pend 1 pend ∧ flush pend s'.out = .ok out := by
  induction es using Exs.rec (motive_1 := fun _ => True) generalizing ts with
  | var | lit | un | bin | call | index | build => trivial
  | nil =>
    intro k args id n ops s hb ho ha hl
    cases h
    exact ⟨s, [], s.out, rfl, ho, by rw [ha]; simp [Exs.length], by simp [Pend], rfl⟩
  | cons e es ihe ih =>
    intro k args id n ops s hb ho ha hl
    have item : ∀ {us : List (Tok X K)}, after (direct us) (k :: args) (.popen :: .func id n :: ops) = .popen :: .func id n :: ops := by
      intro us
      have := after_item (d := false) (ts := us) (id := id) (n := n) (k := k) (e := .popen) (ops := ops) (args := args) (by simp)
        (fun h => absurd h hb)
      rwa [if_neg hb] at this
    cases h with
    | one h1 h2 =>
      obtain ⟨s', pend, g⟩ := g_parsed h1 s (by rw [ho]; trivial) (by rw [ho]; trivial) hl
      refine ⟨s', pend, _, g.run, ?_, ?_, g.pend, g.flushed⟩
      · rw [g.ops, ha, ho, item]
      · rw [g.args, ha]; simp [incArgs, Exs.length]
    | @cons _ us _ vs e' es h1 h2 h3 =>
      obtain ⟨s1, pend, g⟩ := g_parsed h1 s (by rw [ho]; trivial) (by rw [ho]; trivial) hl
      have ho1 := g.ops
      rw [ha, ho, item] at ho1
      have ha1 := g.args
      rw [ha] at ha1
      obtain ⟨s2, pend2, out, g1, g2, g3, g4, g5⟩ := ih h3 (k := k + 1) (args := args) (id := id) (ops := ops) (n := n)
        { s1 with ops := .popen :: .func id n :: ops, out := s.out ++ e.code, last := false } hb rfl ha1 rfl
      refine ⟨s2, pend2, out, ?_, g2, ?_, g4, g5⟩
      · rw [psteps_append, g.run]
        simp only [Res.bind, psteps, pstep]
        rw [ho1, commaLoop_pend (.inl rfl) g.pend g.flushed]
        simp only
        exact g1
      · rw [g3]
        simp only [Exs.length]
        congr 1
        push_cast
        ring

/-- **C105 (2).** Wherever a function is called with a number of arguments other than its own, the expression is rejected. -/
theorem wrong_number_rejected {id n : Nat} (pre post ts : List (Tok X K)) {es : Exs X K} (h : Args true false ts es) (hb : id ≠ idBuild)
    (hn : es.length ≠ n) : ∀ code, parse (pre ++ .func id n :: .popen :: (ts ++ .pclose :: post)) ≠ .ok code := by
  intro code hc
  unfold parse at hc
  rw [psteps_append] at hc
  cases hp : psteps ⟨[], [], [], false⟩ pre with
  | err => rw [hp] at hc; simp [Res.bind] at hc
  | panic => rw [hp] at hc; simp [Res.bind] at hc
  | ok s =>
    rw [hp] at hc
    obtain ⟨s', pend, out, g1, g2, g3, g4, g5⟩ := args_parsed h (k := 0) (args := incArgs s.args) (id := id) (n := n)
      (ops := after true s.args s.ops) ⟨s.out, .popen :: .func id n :: after true s.args s.ops, 0 :: incArgs s.args, false⟩ hb rfl rfl rfl
    have hclose : close s' .popen = .err := by
      unfold close
      rw [g2, closeLoop_pend (.inl rfl) g4 g5]
      simp only [Res.bind, endCall, g3]
      rw [if_pos]
      omega
    have hrun : psteps s (.func id n :: .popen :: (ts ++ .pclose :: post)) = .err := by
      rw [psteps]
      simp only [pstep, Res.bind, inc_eq]
      rw [psteps]
      simp only [pstep, Res.bind]
      rw [psteps_append, g1]
      simp only [Res.bind, psteps, pstep, hclose]
    simp [Res.bind, hrun] at hc

/-- **C105 (3).** Variables come first: a name is read as a function exactly if it is no variable and registered. -/
theorem name_read {var : Name → Option X} {map : Name → Option (Nat × Nat)} {n : Name} {v : Nat × Nat} :
    tokOf var map n = some (.inr v) ↔ var n = none ∧ map n = some v := by
  unfold tokOf
  cases var n <;> simp

/-! ## Examples and what goes wrong -/

/-- Two functions and one of the host; the first is registered again. -/
def exRegs : List (Reg (List Int → Int)) :=
  [.fn "f".toList (fun _ => 0) 1, .fn "sum".toList List.sum 2, .ext "host".toList 7 1, .fn "f".toList (fun vs => 10 * vs.sum) 1]

/-- `f(sum(1, host(2)))` -/
def exNamed : NEx Nat Int :=
  .call "f".toList (.cons (.call "sum".toList (.cons (.lit 1) (.cons (.call "host".toList (.cons (.lit 2) .nil)) .nil))) .nil)

def exTs : List (Tok Nat Int) :=
  [.func 2 1, .popen, .func 1 2, .popen, .lit 1, .comma, .func (idExternal - 7) 1, .popen, .lit 2, .pclose, .pclose, .pclose]

def exEnv0 : Env Nat Int Int :=
  { var := fun x => x, lit := id, bin := fun _ a b => a + b, un := fun _ a => a, toBool := fun v => v ≠ 0, dflt := 0,
    func := fun _ => none, access := fun a _ => a, build := List.sum }

example : Fits exRegs := by
  refine ⟨by decide, ?_⟩
  intro n id k h
  simp only [exRegs, List.mem_cons, List.not_mem_nil, or_false, reduceCtorEq, false_or, Reg.ext.injEq] at h
  rw [h.2.1]
  decide
example : exNamed.Known exRegs := by
  simp [exNamed, NEx.Known, NExs.Known, exRegs, latest, NExs.length]
/-- The host is called once, as number 7 with the argument 2, and answers 5: 10 · (1 + 5). -/
example : (exNamed.meaning exRegs exEnv0).play [5] = ([(7, [2])], some 60) := by decide +kernel
example : ∃ code, parse exTs = .ok code ∧ playCode (withFns exEnv0 (FMap.build exRegs).fns) code (0, []) [5] = ([(7, [2])], some 60) := by
  refine ⟨[.lit 1, .lit 2, .func (idExternal - 7) 1, .func 1 2, .func 2 1], by decide +kernel, ?_⟩
  simp [playCode, evalExpr, evalLoop, popN, pop1, withFns, FMap.build, FMap.new, FMap.add, exRegs, exEnv0, idExternal]

/-- **Negation of C105.** A function of the host with the highest number that is left is taken for the first function of
the runtime: both have the number 0. -/
theorem external_collides (f : List Int → Int) :
    let m := FMap.build [.fn "f".toList f 1, .ext "host".toList idExternal 1]
    m.map "host".toList = m.map "f".toList ∧ m.fns[0]? = some f := by
  refine ⟨?_, rfl⟩
  show some (sub32 idExternal idExternal, 1) = some (u32 0, 1)
  decide +kernel

/-- **Negation of C105.** A function of the host with a number above: calling it builds an array instead. -/
theorem external_wraps :
    (FMap.build [(.ext "host".toList (2 ^ 32 - 1) 1 : Reg (List Int → Int))]).map "host".toList = some (idBuild, 1) := by
  decide +kernel

/-- **Negation of C105.** A second runtime made from the same map has no functions: a call of the first one asks the host
for a function it does not have. -/
theorem second_runtime (f : List Int → Int) :
    let m := FMap.build [.fn "f".toList f 1]
    let m' := m.runtime.2
    m'.runtime.1 = [] ∧ m'.compiler.1 "f".toList = some (0, 1) ∧
      playCode (withFns exEnv0 m'.runtime.1) [.lit 2, .func 0 1] (0, []) [] = ([(idExternal, [2])], none) := by
  refine ⟨rfl, by show some (u32 0, 1) = some (0, 1); decide +kernel, ?_⟩
  simp [playCode, evalExpr, evalLoop, popN, pop1, withFns, FMap.build, FMap.add, FMap.new, FMap.runtime, exEnv0]

end Sieve.Func
