import Mathlib.Data.List.Forall2
import Verif.FieldsSpec

/-! # The instructions of commands and tests: lemmas -/

namespace Sieve.Fields

open Sieve.Args

variable {F : Type} {α β : Type}

/-! ## What the arguments of tags are -/

deriving instance DecidableEq for Kind

theorem reads_typed {x : Ext F} {has : Cap → Bool} {w : Word} {s : Shape} {u r : List (Tok F)} {g : Got F}
    (h : Reads x has w s u r g) {t : Word} {a : Arg F} (ht : (t, a) ∈ g.tags) :
    ∃ q v, s.rows.tag t = some q ∧ ArgIs x q.kind v a := by
  have key : ∀ {rows : Rows} {items : List (Item F)}, (∀ w u a, .tagged w u a ∈ items →
      ∃ q, rows.tag w = some q ∧ (∀ c, q.cap = some c → has c = true) ∧ ArgIs x q.kind u a) → (t, a) ∈ taggedOf items →
      ∃ q v, rows.tag t = some q ∧ ArgIs x q.kind v a := by
    intro rows items h1 h2
    obtain ⟨v, hv⟩ := mem_taggedOf h2
    obtain ⟨q, hq, -, ha⟩ := h1 _ _ _ hv
    exact ⟨q, v, hq, ha⟩
  cases h with
  | tags h1 h2 h3 h4 => exact key h2 ht
  | args ha hc => exact key ha.tags ht
  | noTail ha hn hc => exact key ha.tags ht
  | tail ha hl hc => exact key ha.tags ht
  | keepFlags hi hl =>
    simp only [List.mem_singleton, Prod.mk.injEq] at ht
    obtain ⟨rfl, rfl⟩ := ht
    exact ⟨_, _, rfl, .strs hl⟩
  | over =>
    simp only [List.mem_singleton, Prod.mk.injEq] at ht
    obtain ⟨rfl, rfl⟩ := ht
    exact ⟨_, _, rfl, .flag⟩
  | under =>
    simp only [List.mem_singleton, Prod.mk.injEq] at ht
    obtain ⟨rfl, rfl⟩ := ht
    exact ⟨_, _, rfl, .flag⟩
  | _ => cases ht

def big : Nat := 2 ^ 64 - 1

/-- What follows the tags of actions. -/
def actionKinds : List (Word × List Kind) := [
  (.Copy, [.flag]), (.Create, [.flag]), (.List, [.flag]), (.Mime, [.flag]), (.Once, [.flag]), (.Optional, [.flag]),
  (.ByTrace, [.flag]), (.Last, [.flag]), (.Personal, [.flag]), (.Global, [.flag]), (.Flags, [.strs]), (.Addresses, [.strs]),
  (.Options, [.strs]), (.Headers, [.strs]), (.MailboxId, [.str]), (.SpecialUse, [.str]), (.Fcc, [.str]), (.Subject, [.str]),
  (.From, [.str, .sender]), (.Handle, [.str]), (.Message, [.str]), (.Importance, [.str]), (.Days, [.number big]),
  (.Seconds, [.number big]), (.Notify, [.notifyItems]), (.Ret, [.static ["full", "hdrs"]]),
  (.ByMode, [.static ["notify", "return"]]), (.ByTimeRelative, [.number big]), (.ByTimeAbsolute, [.str])]

/-- What follows the tags of tests and of `deleteheader`. -/
def testKinds : List (Word × List Kind) := [
  (.Is, [.flag]), (.Contains, [.flag]), (.Matches, [.flag]), (.Value, [.rel]), (.Count, [.rel]), (.Regex, [.flag]),
  (.List, [.flag]), (.Comparator, [.static []]), (.LocalPart, [.flag]), (.Domain, [.flag]), (.All, [.flag]), (.User, [.flag]),
  (.Detail, [.flag]), (.Name, [.flag]), (.Index, [.number 65535]), (.Last, [.flag]), (.Mime, [.flag]), (.AnyChild, [.flag]),
  (.Type, [.flag]), (.Subtype, [.flag]), (.ContentType, [.flag]), (.Param, [.strs]), (.Raw, [.flag]), (.Text, [.flag]),
  (.Content, [.strs]), (.Subject, [.flag]), (.OriginalZone, [.flag]), (.Zone, [.zone]), (.Percent, [.flag]),
  (.Handle, [.str]), (.Header, [.header]), (.UniqueId, [.str]), (.Seconds, [.number big])]

def kindsOk (t : List (Word × List Kind)) (e : Entry) : Bool :=
  e.shape.rows.all fun p => t.all fun q => q.1 ≠ p.1 || decide (p.2.kind ∈ q.2)

theorem kindsOk_spec {t : List (Word × List Kind)} {e : Entry} (h : kindsOk t e = true) {w : Word} {ks : List Kind} {q : Row}
    (hw : (w, ks) ∈ t) (hq : e.shape.rows.tag w = some q) : q.kind ∈ ks := by
  have h1 := List.all_eq_true.1 h _ (tag_mem hq)
  have h2 := List.all_eq_true.1 h1 _ hw
  simpa using h2

theorem action_kinds (w : Word) : (commandEntry w).all (kindsOk actionKinds) = true := by cases w <;> decide +kernel

theorem test_kinds (w : Word) : (testEntry w).all (kindsOk testKinds) = true := by cases w <;> decide +kernel

/-- The entry of a test, or of `deleteheader`. -/
def TestLike (w : Word) (e : Entry) : Prop := testEntry w = some e ∨ w = .DeleteHeader ∧ commandEntry w = some e

theorem TestLike.has {w : Word} {e : Entry} (h : TestLike w e) : HasEntry w e := h.elim .inr fun h => .inl h.2

theorem TestLike.kinds {w : Word} {e : Entry} (h : TestLike w e) : kindsOk testKinds e = true := by
  rcases h with h | ⟨rfl, h⟩
  · have := test_kinds w
    rw [h] at this
    exact this
  · have : (commandEntry .DeleteHeader).all (kindsOk testKinds) = true := by decide +kernel
    rw [h] at this
    exact this

theorem command_kinds {w : Word} {e : Entry} (h : commandEntry w = some e) : kindsOk actionKinds e = true := by
  have := action_kinds w
  rw [h] at this
  exact this

theorem typed {t : List (Word × List Kind)} {x : Ext F} {has : Cap → Bool} {w : Word} {e : Entry} {ts : List (Tok F)}
    {g : Got F} {r : List (Tok F)} (he : HasEntry w e) (ht : kindsOk t e = true) (h : readEntry x has w e ts = some (g, r))
    {v : Word} {a : Arg F} (hv : (v, a) ∈ g.tags) {ks : List Kind} (hk : (v, ks) ∈ t) : ∃ k ∈ ks, ∃ u, ArgIs x k u a := by
  obtain ⟨-, u, -, hr⟩ := (arguments_iff x has he ts g r).1 h
  obtain ⟨q, u', hq, ha⟩ := reads_typed hr hv
  exact ⟨q.kind, kindsOk_spec ht hk hq, u', ha⟩

/-! ## Positional arguments -/

theorem positions {x : Ext F} {has : Cap → Bool} {w : Word} {e : Entry} {ts : List (Tok F)} {g : Got F} {r : List (Tok F)}
    (he : HasEntry w e) (h : readEntry x has w e ts = some (g, r)) {rows : Rows} {ps : List Pos} {tail : Bool}
    (hs : e.shape = .args rows ps tail) :
    ∃ l, List.Forall₂ (fun p a => ∃ u, PosIs x has p u a) ps l ∧
      (g.pos = l ∨ tail = true ∧ ∃ vs, g.pos = l ++ [.vals vs]) := by
  obtain ⟨-, u, -, hr⟩ := (arguments_iff x has he ts g r).1 h
  rw [hs] at hr
  have key : ∀ {items : List (Item F)}, Allowed x has rows ps items →
      List.Forall₂ (fun p a => ∃ u, PosIs x has p u a) ps ((plainOf items).map (·.2)) := by
    intro items ha
    rw [List.forall₂_map_right_iff]
    exact ha.pos.imp fun p q h => ⟨_, h⟩
  cases hr with
  | args ha hc => exact ⟨_, key ha, .inl rfl⟩
  | noTail ha hn hc => exact ⟨_, key ha, .inl rfl⟩
  | tail ha hl hc => exact ⟨_, key ha, .inr ⟨rfl, _, rfl⟩⟩

/-! ## Folds of assignments -/

theorem fold_other {set : α → Word × Arg F → α} {f : α → β} {words : List Word}
    (h2 : ∀ a p, p.1 ∉ words → f (set a p) = f a) :
    ∀ (l : List (Word × Arg F)) (a : α), (∀ p ∈ l, p.1 ∉ words) → f (l.foldl set a) = f a := by
  intro l
  induction l with
  | nil => intro a _; rfl
  | cons p l ih =>
    intro a h
    rw [List.foldl_cons, ih _ fun q hq => h q (List.mem_cons_of_mem _ hq), h2 a p (h p List.mem_cons_self)]

theorem fold_given {set : α → Word × Arg F → α} {f : α → β} {words : List Word} {means : Word → Arg F → β → Prop}
    (h2 : ∀ a p, p.1 ∉ words → f (set a p) = f a) :
    ∀ (l : List (Word × Arg F)) (a : α), (∀ a, ∀ p ∈ l, p.1 ∈ words → means p.1 p.2 (f (set a p))) →
      (l.Pairwise fun p q => p.1 ∈ words → q.1 ∉ words) → ∀ p ∈ l, p.1 ∈ words → means p.1 p.2 (f (l.foldl set a)) := by
  intro l
  induction l with
  | nil => intro a _ _ p hp; cases hp
  | cons q l ih =>
    intro a h1 hx p hp hw
    rw [List.pairwise_cons] at hx
    rw [List.foldl_cons]
    rcases List.mem_cons.1 hp with rfl | hp
    · rw [fold_other h2 l _ fun q hq => hx.1 q hq hw]
      exact h1 a p List.mem_cons_self hw
    · exact ih _ (fun a q hq => h1 a q (List.mem_cons_of_mem _ hq)) hx.2 p hp hw

/-- Tags of a group that are exclusive. -/
def exclusiveB (words : List Word) : Bool :=
  words.all fun v => words.all fun w => decide (Clash v w) && decide (v ∉ modifierTags)

theorem stores {x : Ext F} {has : Cap → Bool} {w : Word} {e : Entry} {ts : List (Tok F)} {g : Got F} {r : List (Tok F)}
    (he : HasEntry w e) (h : readEntry x has w e ts = some (g, r)) {set : α → Word × Arg F → α} {f : α → β}
    {words : List Word} {means : Word → Arg F → β → Prop} {a : α} (hw : exclusiveB words = true)
    (h2 : ∀ a p, p.1 ∉ words → f (set a p) = f a)
    (h1 : ∀ v b, (v, b) ∈ g.tags → v ∈ words → ∀ a, means v b (f (set a (v, b)))) :
    Stores g words means (f a) (f (g.tags.foldl set a)) where
  given := by
    intro v b hv hm
    refine fold_given h2 g.tags a (fun a p hp hpw => h1 p.1 p.2 hp hpw a) ?_ (v, b) hv hm
    refine (exclusive_partial x has he h).imp ?_
    intro p q hpq hp hq
    have h3 := List.all_eq_true.1 (List.all_eq_true.1 hw p.1 hp) q.1 hq
    have h4 := List.all_eq_true.1 (List.all_eq_true.1 hw q.1 hq) p.1 hp
    simp only [Bool.and_eq_true, decide_eq_true_eq] at h3 h4
    rcases hpq h3.1 with h5 | h5
    · exact h3.2 h5
    · exact h4.2 h5
  default := by
    intro hn
    refine fold_other h2 g.tags a fun p hp hpw => hn p.1 hpw ⟨p.2, hp⟩

end Sieve.Fields
