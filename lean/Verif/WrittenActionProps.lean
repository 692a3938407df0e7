import Verif.WrittenProps
import Verif.WrittenActionModel
import Verif.NotifyProps
import Verif.BuildReplace

/-!
# Actions as they are written: from the arguments in the script to what is done

What `addheader`, `deleteheader`, `vacation`, `notify`, `replace` and `enclose` do in terms of the tags and arguments that are
written in the script (RFC 5293, RFC 5230, RFC 5435, RFC 5703, RFC 8580).
-/

namespace Sieve.Written

open Sieve.Args Sieve.Fields

variable {F N : Type}

/-! ## What is said in a script -/

/-- The text of a string in the script. -/
def TextOf (env : Env F N) (v : Val F) (t : Tests.Str) : Prop := t = Tests.text env.x.flt (env.eval v)

/-- `o` is the text given with the tag `w`, if there is one. -/
def Says (env : Env F N) (g : Got F) (w : Word) (o : Option Tests.Str) : Prop :=
  ∀ t, o = some t ↔ ∃ v, (w, .val v) ∈ g.tags ∧ TextOf env v t

/-- `l` are the texts given with the tag `w`, none without it. -/
def Lists (env : Env F N) (g : Got F) (w : Word) (l : List Tests.Str) : Prop :=
  (∀ vs, (w, .vals vs) ∈ g.tags → List.Forall₂ (TextOf env) vs l) ∧ (¬ Uses g w → l = [])

theorem forall_text (env : Env F N) (vs : List (Val F)) (l : List Tests.Str) :
    List.Forall₂ (TextOf env) vs l ↔ l = vs.map (value env) := by
  induction vs generalizing l with
  | nil => cases l <;> simp
  | cons v vs ih =>
    cases l with
    | nil => simp
    | cons t l =>
      simp only [List.forall₂_cons, List.map_cons, List.cons.injEq, ih]
      rfl

theorem says_iff {g : Got F} {w : Word} {b : Option (Val F)} (h : Stores g [w] One none b) (env : Env F N)
    (o : Option Tests.Str) : Says env g w o ↔ o = b.map (value env) := by
  have key : ∀ t, b.map (value env) = some t ↔ ∃ v, (w, .val v) ∈ g.tags ∧ TextOf env v t := by
    intro t
    rw [Option.map_eq_some_iff]
    constructor
    · rintro ⟨v, rfl, rfl⟩
      rcases stored_used h with ⟨w', hw, a, ht, v', rfl, hv⟩ | ⟨-, hd⟩
      · rw [List.mem_singleton] at hw
        subst hw
        injection hv with hv
        subst hv
        exact ⟨_, ht, rfl⟩
      · cases hd
    · rintro ⟨v, ht, rfl⟩
      obtain ⟨v', e, hb⟩ := h.given w _ ht (by simp)
      injection e with e
      subst e
      exact ⟨v, hb, rfl⟩
  constructor
  · intro ho
    exact Option.ext fun t => (ho t).trans (key t).symm
  · rintro rfl
    exact key

theorem lists_iff {g : Got F} {w : Word} {b : List (Val F)} (h : Stores g [w] Many [] b) (env : Env F N)
    (l : List Tests.Str) : Lists env g w l ↔ l = b.map (value env) := by
  constructor
  · rintro ⟨h1, h2⟩
    by_cases hu : Uses g w
    · obtain ⟨a, ha⟩ := hu
      have e : a = .vals b := h.given w a ha (by simp)
      subst e
      exact (forall_text env b l).1 (h1 b ha)
    · rw [h2 hu, h.default (by simpa using hu)]
      rfl
  · rintro rfl
    refine ⟨fun vs hv => ?_, fun hn => ?_⟩
    · have e : Arg.vals vs = .vals b := h.given w _ hv (by simp)
      injection e with e
      subst e
      exact (forall_text env vs _).2 rfl
    · rw [h.default (by simpa using hn)]
      rfl

/-! ## Header fields -/

/-- The name a header field gets: the text without anything but letters, digits and hyphens, if it is a name that may be
changed. -/
def NewName (env : Env F N) (o : Editing N) (v : Val F) (n : N) : Prop :=
  ∃ s t, TextOf env v s ∧ t = s.filter (fun c => o.alnum c || c == '-') ∧ t ≠ [] ∧ env.headerName t = some n ∧ o.prot n = false

/-- Where the field is put: first, or last with `:last`. -/
def Placed (g : Got F) (h : Mime.Header N Tests.Field) (hs hs' : List (Mime.Header N Tests.Field)) : Prop :=
  (Uses g .Last → hs' = hs ++ [h]) ∧ (¬ Uses g .Last → hs' = h :: hs)

/-- C120: `addheader` puts one field into the current part, at its beginning or with `:last` at its end; its text is as much of
the given one as is allowed, without line breaks.  Nothing happens for a name that is none or is protected. -/
theorem addheader_written (y : Args.Ext F) (has : Cap → Bool) {e : Entry} (he : commandEntry .AddHeader = some e)
    {ts : List (Tok F)} {g : Got F} {r : List (Tok F)} (h : readEntry y has .AddHeader e ts = some (g, r)) :
    ∃ i nm v, AddHeader.of g = some i ∧ g.pos = [.val nm, .val v] ∧
      ∀ (env : Env F N) (o : Editing N) (p : Mime.Part N Tests.Field), env.parts[env.part]? = some p →
        ((∀ n, ¬ NewName env o nm n) → addheader env o i = some env.parts) ∧
        ∀ n, NewName env o nm n → ∃ parts' s t hs', addheader env o i = some parts' ∧ parts'.length = env.parts.length ∧
          (∀ id, id ≠ env.part → parts'[id]? = env.parts[id]?) ∧ parts'[env.part]? = some ⟨hs', p.body⟩ ∧
          Placed g ⟨n, ⟨.text t, true, []⟩⟩ p.headers hs' ∧ TextOf env v s ∧
          LongestPrefix o.maxSize (s.filter fun c => !(c == '\n' || c == '\r')) t := by
  obtain ⟨i, hi, hp, hl⟩ := addheader_fields y has he h
  refine ⟨i, _, _, hi, hp, ?_⟩
  intro env o p hpart
  constructor
  · intro hno
    unfold addheader Mime.addHeader
    simp only
    split
    · rfl
    · rename_i hne
      split
      · rfl
      · rename_i n hn
        split
        · rfl
        · rename_i hprot
          exact absurd ⟨_, _, rfl, rfl, hne, hn, by simpa using hprot⟩ (hno n)
  · rintro n ⟨s, t, rfl, rfl, hne, hn, hprot⟩
    have hlt : env.part < env.parts.length := (List.getElem?_eq_some_iff.1 hpart).1
    have hadd : addheader env o i = some (env.parts.set env.part { p with
        headers := if i.last then p.headers ++ [⟨n, ⟨.text (Mime.removeCrlf o.maxSize (value env i.value)), true, []⟩⟩]
          else ⟨n, ⟨.text (Mime.removeCrlf o.maxSize (value env i.value)), true, []⟩⟩ :: p.headers }) := by
      unfold addheader Mime.addHeader Mime.insertHeader
      simp only [value, hn, hprot, hpart]
      rw [if_neg hne]
      rfl
    refine ⟨_, value env i.value, Mime.removeCrlf o.maxSize (value env i.value), _, hadd, by simp, fun id hid => by
      simp [List.getElem?_set, Ne.symm hid], by rw [List.getElem?_set, if_pos rfl, if_pos hlt], ?_, rfl,
      (Mime.header_value_clean o.maxSize (value env i.value)).2.2.2⟩
    have := flag_iff hl
    refine ⟨fun hu => ?_, fun hu => ?_⟩
    · rw [if_pos (this.2 hu)]
    · rw [if_neg fun k => hu (this.1 k)]

/-- A value that is to be deleted: without patterns any, otherwise one of the field's texts meets one of them. -/
def Meant (env : Env F N) (g : Got F) (ks : List (Val F)) (h : Mime.Header N Tests.Field) : Prop :=
  ks = [] ∨ ∃ v, Tests.FieldValue env.x (env.plain h.name) h.value .none v ∧
    ∃ k ∈ ks, Meets env.x g (.text v) (.val (env.eval k))

/-- The field at this place of a part is deleted: it has the name given, which is not protected, it is the occurrence that
`:index` and `:last` ask for, in a part that is searched, and its value is meant. -/
def Deleted [DecidableEq N] (env : Env F N) (o : Editing N) (g : Got F) (t : Mime.Tree) (nm : Val F) (ks : List (Val F)) (id : Nat)
    (hs : List (Mime.Header N Tests.Field)) (pos : Nat) : Prop :=
  ∃ s name, TextOf env nm s ∧ env.headerName s = some name ∧ o.prot name = false ∧ Searched g t id ∧
    ∃ index, IndexIs g index ∧ Mime.Selected hs index name pos ∧ ∃ h, hs[pos]? = some h ∧ Meant env g ks h

theorem deletes_iff {env : Env F N} (ok : env.x.Ok) {g : Got F} {i : DeleteHeader F} (hc : Compares g i.matchType i.comparator)
    (h : Mime.Header N Tests.Field) : deletes env i h = true ↔ Meant env g i.patterns h := by
  unfold deletes Meant
  have one : ∀ v p, (match i.matchType with
        | .is => (comparatorOf i.comparator).is env.x (.text v) (.val (env.eval p))
        | .contains => (comparatorOf i.comparator).contains env.x v (value env p)
        | .value r => (comparatorOf i.comparator).relational env.x (relOf r) (.text v) (.val (env.eval p))
        | .glob => ((comparatorOf i.comparator).glob env.x [] v (value env p) 0).2
        | .regex => (Tests.regexMatch env.x [] v (value env p) 0).2
        | .count _ => false
        | .list => false) = true ↔ Meets env.x g (.text v) (.val (env.eval p)) := by
    intro v p
    rw [← meets_iff hc env.x 0 (.text v) (.val (env.eval p)),
      ← Tests.verdict_iff ok (comparatorOf i.comparator) (matchOf 0 i.matchType) (.text v) (.val (env.eval p))
        (charwise_of (fun k => absurd rfl k) _ _)]
    cases i.matchType <;> exact Iff.rfl
  cases hp : i.patterns with
  | nil => simp
  | cons k ks =>
    simp only [List.isEmpty_cons, Bool.false_eq_true, if_false, reduceCtorEq, false_or, List.any_eq_true]
    constructor
    · rintro ⟨v, h1, p, h2, h3⟩
      exact ⟨v, (Tests.headerValues_iff _ _ _ _ _).1 h1, p, h2, (one v p).1 h3⟩
    · rintro ⟨v, h1, p, h2, h3⟩
      exact ⟨v, (Tests.headerValues_iff _ _ _ _ _).2 h1, p, h2, (one v p).2 h3⟩

open Classical in
/-- C120: `deleteheader` takes exactly the fields out of the message that it is written to delete, and leaves all others as
they are and in their order.  With `:count` or `:list` none are deleted, as no value meets a pattern then. -/
theorem deleteheader_written [dec : DecidableEq N] (y : Args.Ext F) (has : Cap → Bool) {e : Entry}
    (he : commandEntry .DeleteHeader = some e)
    {ts : List (Tok F)} {g : Got F} {r : List (Tok F)} (h : readEntry y has .DeleteHeader e ts = some (g, r)) :
    ∃ i nm ks, DeleteHeader.of g = some i ∧ (g.pos = [.val nm] ∧ ks = [] ∨ g.pos = [.val nm, .vals ks]) ∧
      ∀ (env : Env F N) (o : Editing N) (t : Mime.Tree) (fuel : Nat), env.x.Ok → Mime.Represents env.parts t →
        env.part = t.id → t.preorder.Nodup → t.preorder.length < fuel →
        ∃ parts' : List (Mime.Part N Tests.Field), deleteheader env o fuel i = some parts' ∧ parts'.length = env.parts.length ∧
          ∀ (id : Nat) (p : Mime.Part N Tests.Field), env.parts[id]? = some p →
            parts'[id]? = some ⟨Mime.without (Deleted env o g t nm ks id p.headers) p.headers, p.body⟩ := by
  obtain ⟨i, hi, hp, hc, hx, ha⟩ := deleteheader_fields_partial y has he h
  refine ⟨i, i.name, i.patterns, hi, hp, ?_⟩
  intro env o t fuel ok ht hpart hnd hf
  have hkeep : ∀ (del : Nat → Prop) (hs : List (Mime.Header N Tests.Field)), (∀ j, ¬ del j) → Mime.without del hs = hs := by
    intro del hs hd
    rw [Mime.without_eq, Mime.dropAt_none _ _ _ hd]
  unfold deleteheader
  cases hn : env.headerName (value env i.name) with
  | none =>
    refine ⟨env.parts, rfl, rfl, fun id p hp => ?_⟩
    rw [hkeep _ _ (by rintro j ⟨s, name, rfl, h1, -⟩; rw [show Tests.text env.x.flt (env.eval i.name) = value env i.name from rfl, hn] at h1; cases h1)]
    exact hp
  | some name =>
    have hvis : ∃ parts' : List (Mime.Part N Tests.Field), Mime.deleteHeader o.prot env.parts t.id name i.index i.anyChild (deletes env i) fuel = some parts' ∧
        parts'.length = env.parts.length ∧ ∀ (id : Nat) (p : Mime.Part N Tests.Field), env.parts[id]? = some p →
          parts'[id]? = some ⟨Mime.without (fun pos => o.prot name = false ∧ id ∈ Tests.searched i.anyChild t ∧
            Mime.Selected p.headers i.index name pos ∧ ∃ h, p.headers[pos]? = some h ∧ deletes env i h = true) p.headers, p.body⟩ := by
      cases hb : i.anyChild with
      | true => exact Mime.deleteheader_anychild_exact o.prot env.parts t ht hnd name i.index (deletes env i) fuel hf
      | false =>
        have hlt : t.id < env.parts.length := by
          cases ht with
          | leaf h1 _ => exact (List.getElem?_eq_some_iff.1 h1).1
          | multi h1 _ _ => exact (List.getElem?_eq_some_iff.1 h1).1
        obtain ⟨f, rfl⟩ : ∃ f, fuel = f + 2 := by
          have : 1 ≤ t.preorder.length := by cases t; simp [Mime.Tree.preorder]
          exact ⟨fuel - 2, by omega⟩
        obtain ⟨parts', h1, h2, h3⟩ := Mime.deleteheader_exact o.prot env.parts t.id hlt name i.index (deletes env i) f
        refine ⟨parts', h1, h2, fun id p hp => ?_⟩
        rw [h3 id p hp]
        simp [Tests.searched]
    obtain ⟨parts', h1, h2, h3⟩ := hvis
    refine ⟨parts', by simp only [hpart]; exact h1, h2, fun id p hp => ?_⟩
    rw [h3 id p hp, Mime.without_eq, Mime.without_eq]
    congr 2
    apply Mime.dropAt_congr
    intro j _ _
    constructor
    · rintro ⟨k1, k2, k3, hd, k4, k5⟩
      exact ⟨_, name, rfl, hn, k1, (searched_iff ha t id).1 k2, _, hx, k3, hd, k4, (deletes_iff ok hc hd).1 k5⟩
    · rintro ⟨s, name', rfl, k0, k1, k2, index, hi', k3, hd, k4, k5⟩
      have : name' = name := by
        have e : some name' = some name := k0.symm.trans hn
        injection e
      subst this
      rw [index_unique hi' hx] at k3
      exact ⟨k1, (searched_iff ha t id).2 k2, k3, hd, k4, (deletes_iff ok hc hd).2 k5⟩

/-! ## Texts that are taken apart -/

/-- `t` is `s` without the blanks at its ends. -/
def Trimmed (ws : Char → Bool) (s t : Tests.Str) : Prop :=
  ∃ a b, s = a ++ t ++ b ∧ (∀ c ∈ a, ws c = true) ∧ (∀ c ∈ b, ws c = true) ∧ (∀ c, t.head? = some c → ws c = false) ∧
    ∀ c, t.getLast? = some c → ws c = false

theorem dropWhile_blank (ws : Char → Bool) (a r : Tests.Str) (h : ∀ c ∈ a, ws c = true) (hr : ∀ c, r.head? = some c → ws c = false) :
    (a ++ r).dropWhile ws = r := by
  induction a with
  | nil =>
    cases r with
    | nil => rfl
    | cons c r => simp [hr c rfl]
  | cons c a ih =>
    rw [List.cons_append, List.dropWhile_cons, if_pos (h c List.mem_cons_self)]
    exact ih fun d hd => h d (List.mem_cons_of_mem _ hd)

theorem dropWhile_head (ws : Char → Bool) (s : Tests.Str) : ∃ a, s = a ++ s.dropWhile ws ∧ (∀ c ∈ a, ws c = true) ∧
    ∀ c, (s.dropWhile ws).head? = some c → ws c = false := by
  induction s with
  | nil => exact ⟨[], rfl, by simp, by simp⟩
  | cons d s ih =>
    rw [List.dropWhile_cons]
    cases hd : ws d with
    | true =>
      obtain ⟨a, h1, h2, h3⟩ := ih
      refine ⟨d :: a, ?_, ?_, ?_⟩
      · rw [if_pos rfl, List.cons_append, ← h1]
      · intro c hc
        rcases List.mem_cons.1 hc with rfl | hc
        · exact hd
        · exact h2 c hc
      · rw [if_pos rfl]; exact h3
    | false =>
      refine ⟨[], rfl, by simp, ?_⟩
      intro c hc
      simp at hc
      rw [← hc]; exact hd

theorem trimmed_iff (ws : Char → Bool) (s t : Tests.Str) : Trimmed ws s t ↔ t = ((s.dropWhile ws).reverse.dropWhile ws).reverse := by
  constructor
  · rintro ⟨a, b, rfl, ha, hb, hh, hl⟩
    cases t with
    | nil =>
      rw [List.append_nil]
      have : (a ++ b).dropWhile ws = [] := by
        have := dropWhile_blank ws (a ++ b) [] (by
          intro c hc
          rcases List.mem_append.1 hc with hc | hc
          · exact ha c hc
          · exact hb c hc) (by simp)
        rwa [List.append_nil] at this
      rw [this]
      rfl
    | cons d t =>
      rw [List.append_assoc, dropWhile_blank ws a _ ha (by simpa using hh), List.reverse_append,
        dropWhile_blank ws _ _ (by simpa using hb) (by intro c hc; rw [List.head?_reverse] at hc; exact hl c hc), List.reverse_reverse]
  · rintro rfl
    obtain ⟨a, h1, h2, h3⟩ := dropWhile_head ws s
    obtain ⟨b, h4, h5, h6⟩ := dropWhile_head ws (s.dropWhile ws).reverse
    have h7 : s.dropWhile ws = ((s.dropWhile ws).reverse.dropWhile ws).reverse ++ b.reverse := by
      rw [← List.reverse_append, ← h4, List.reverse_reverse]
    refine ⟨a, b.reverse, ?_, h2, by simpa using h5, ?_, ?_⟩
    · rw [List.append_assoc, ← h7, ← h1]
    · intro c hc
      apply h3
      rw [h7, List.head?_append, hc]
      rfl
    · intro c hc
      rw [List.getLast?_reverse] at hc
      exact h6 c hc

/-- The words of a text. -/
inductive Words : Tests.Str → List Tests.Str → Prop
  | none {s} : (∀ c ∈ s, Flags.asciiWs c = true) → Words s []
  | word {a w r l} : (∀ c ∈ a, Flags.asciiWs c = true) → w ≠ [] → (∀ c ∈ w, Flags.asciiWs c = false) →
      (∀ c, r.head? = some c → Flags.asciiWs c = true) → Words r l → Words (a ++ w ++ r) (w :: l)

/-- The flags that texts name: the words of a single one, otherwise each text that is not empty. -/
inductive FlagsIn (ws : Char → Bool) : List Tests.Str → List Tests.Str → Prop
  | words {s l} : Words s l → FlagsIn ws [s] l
  | texts {ss l} : ss.length ≠ 1 → List.Forall₂ (Trimmed ws) (ss.filter (· ≠ [])) l → FlagsIn ws ss l

theorem splitWs_blank (a s : Tests.Str) (h : ∀ c ∈ a, Flags.asciiWs c = true) : Flags.splitWs [] (a ++ s) = Flags.splitWs [] s := by
  induction a with
  | nil => rfl
  | cons c a ih =>
    rw [List.cons_append, Flags.splitWs, if_pos (h c List.mem_cons_self), if_pos rfl]
    exact ih fun d hd => h d (List.mem_cons_of_mem _ hd)

theorem words_split {s : Tests.Str} {l : List Tests.Str} (h : Words s l) : Flags.splitWs [] s = l := by
  induction h with
  | @none s h =>
    have := splitWs_blank s [] h
    rw [List.append_nil] at this
    rw [this]
    rfl
  | @word a w r l ha hw hw' hr hrl ih =>
    rw [List.append_assoc, splitWs_blank a _ ha, Flags.splitWs_word w [] r hw', List.nil_append]
    cases r with
    | nil =>
      rw [← ih, Flags.splitWs, if_neg hw]
      rfl
    | cons c r =>
      rw [Flags.splitWs, if_pos (hr c rfl), if_neg hw]
      rw [← ih, Flags.splitWs, if_pos (hr c rfl), if_pos rfl]

theorem words_exist (s : Tests.Str) : ∃ l, Words s l := by
  have key : ∀ n (s : Tests.Str), s.length ≤ n → ∃ l, Words s l := by
    intro n
    induction n with
    | zero =>
      intro s hs
      cases s with
      | nil => exact ⟨[], .none (by simp)⟩
      | cons c s => simp at hs
    | succ n ih =>
      intro s hs
      obtain ⟨a, h1, h2, h3⟩ := dropWhile_head Flags.asciiWs s
      cases hr : s.dropWhile Flags.asciiWs with
      | nil =>
        rw [hr, List.append_nil] at h1
        subst h1
        exact ⟨[], .none h2⟩
      | cons c r =>
        obtain ⟨w, h4, h5, h6⟩ := dropWhile_head (fun c => !Flags.asciiWs c) (s.dropWhile Flags.asciiWs)
        have hc : Flags.asciiWs c = false := h3 c (by rw [hr]; rfl)
        have hw : w ≠ [] := by
          rintro rfl
          rw [List.nil_append] at h4
          have := h6 c (by rw [← h4, hr]; rfl)
          simp [hc] at this
        obtain ⟨l, hl⟩ := ih ((s.dropWhile Flags.asciiWs).dropWhile fun c => !Flags.asciiWs c) (by
          have e1 := congrArg List.length h1
          have e2 := congrArg List.length h4
          have : 0 < w.length := List.length_pos_iff.2 hw
          rw [List.length_append] at e1 e2
          omega)
        refine ⟨w :: l, ?_⟩
        have := Words.word h2 hw (fun c hc => by simpa using h5 c hc) (fun c hc => by simpa using h6 c hc) hl
        rw [List.append_assoc, ← h4, ← h1] at this
        exact this
  exact key _ s (Nat.le_refl _)

theorem words_iff (s : Tests.Str) (l : List Tests.Str) : Words s l ↔ l = Flags.splitWs [] s := by
  constructor
  · exact fun h => (words_split h).symm
  · rintro rfl
    obtain ⟨l, hl⟩ := words_exist s
    rw [words_split hl]
    exact hl

theorem forall_trimmed (ws : Char → Bool) (ss l : List Tests.Str) :
    List.Forall₂ (Trimmed ws) ss l ↔ l = ss.map (Flags.trim ws) := by
  induction ss generalizing l with
  | nil => cases l <;> simp
  | cons s ss ih =>
    cases l with
    | nil => simp
    | cons t l =>
      rw [List.forall₂_cons, trimmed_iff, ih, List.map_cons, List.cons.injEq]
      rfl

theorem flagsIn_iff (ws : Char → Bool) (ss l : List Tests.Str) : FlagsIn ws ss l ↔ l = Flags.tokens ws ss := by
  unfold Flags.tokens
  constructor
  · intro h
    cases h with
    | @words s l h =>
      have := (words_iff s l).1 h
      simp only
      split
      · rename_i hs
        subst hs
        rw [this]
        rfl
      · exact this
    | texts h1 h2 =>
      split
      · simp at h1
      · exact (forall_trimmed ws _ l).1 h2
  · intro h
    split at h
    · rename_i s
      refine .words ((words_iff s l).2 ?_)
      split at h
      · rename_i hs
        subst hs
        rw [h]
        rfl
      · exact h
    · rename_i hs
      refine .texts (fun k => ?_) ((forall_trimmed ws _ l).2 h)
      match ss, k with
      | [s], _ => exact hs s rfl

/-! ## Messages that are sent -/

/-- The copy that is asked for with `:fcc` (RFC 8580). -/
def CopySaid (env : Env F N) (g : Got F) : Option Notify.Fcc → Prop
  | none => ¬ Uses g .Fcc
  | some k => (∃ v, (.Fcc, .val v) ∈ g.tags ∧ TextOf env v k.mailbox) ∧ (k.create = true ↔ Uses g .Create) ∧
      (∃ l, Lists env g .Flags l ∧ FlagsIn env.x.ws l k.flags) ∧ Says env g .SpecialUse k.specialUse ∧
      Says env g .MailboxId k.mailboxId

theorem copy_iff {g : Got F} {c : Option (Fields.Fcc F)} (h : FccIs g c) (env : Env F N) (o : Option Notify.Fcc) :
    CopySaid env g o ↔ o = c.map (copyOf env) := by
  by_cases hu : Uses g .Fcc
  · obtain ⟨a, ha⟩ := hu
    obtain ⟨k, rfl, rfl, hcr, hfl, hsu, hid⟩ := h.given a ha
    cases o with
    | none => exact ⟨fun hn => absurd ⟨_, ha⟩ hn, fun hn => by cases hn⟩
    | some c =>
      have hcr' := flag_iff hcr
      rw [Option.map_some, Option.some.injEq]
      unfold CopySaid
      simp only [says_iff hsu, says_iff hid, lists_iff hfl]
      constructor
      · rintro ⟨⟨v, h1, h2⟩, h3, ⟨l, rfl, h4⟩, h5, h6⟩
        obtain ⟨k', e1, e2, -⟩ := h.given _ h1
        injection e1 with e1
        subst e1
        injection e2 with e2
        subst e2
        obtain ⟨m, fl, mi, su, cr⟩ := c
        unfold copyOf
        rw [Notify.Fcc.mk.injEq]
        refine ⟨h2, (flagsIn_iff _ _ _).1 h4, h6, h5, ?_⟩
        rw [Bool.eq_iff_iff]
        exact h3.trans hcr'.symm
      · rintro rfl
        exact ⟨⟨_, ha, rfl⟩, hcr', ⟨_, rfl, (flagsIn_iff _ _ _).2 rfl⟩, rfl, rfl⟩
  · rw [h.default hu]
    cases o with
    | none => exact ⟨fun _ => rfl, fun _ => hu⟩
    | some c =>
      refine ⟨fun hc => ?_, fun hc => by cases hc⟩
      obtain ⟨⟨v, hv, -⟩, -⟩ := hc
      exact absurd ⟨_, hv⟩ hu

/-- How long the sender is remembered: `:days`, `:seconds`, or as configured. -/
def PeriodSaid (g : Got F) : Vacation.Period → Prop
  | .days n => (.Days, .num n) ∈ g.tags
  | .seconds n => (.Seconds, .num n) ∈ g.tags
  | .default => ¬ Uses g .Days ∧ ¬ Uses g .Seconds

theorem period_iff {g : Got F} {b : Fields.Period} (h : Stores g [.Days, .Seconds] PeriodMeans .default b) (p : Vacation.Period) :
    PeriodSaid g p ↔ p = periodOf b := by
  constructor
  · intro hp
    cases p with
    | days n => cases h.given _ _ hp (by simp); rfl
    | seconds n => cases h.given _ _ hp (by simp); rfl
    | default => rw [h.default (by simpa [or_imp, forall_and, PeriodSaid] using hp)]; rfl
  · rintro rfl
    rcases stored_used h with ⟨w, hw, a, ha, hm⟩ | ⟨hn, rfl⟩
    · cases hm with
      | days n => exact ha
      | seconds n => exact ha
    · exact ⟨hn _ (by simp), hn _ (by simp)⟩

/-- What `vacation` is asked to look at. -/
def VacationSaid (env : Env F N) (g : Got F) (v : Val F) (a : Vacation.Args) : Prop :=
  Lists env g .Addresses a.addresses ∧ Says env g .Handle a.handle ∧ TextOf env v a.reason ∧ PeriodSaid g a.period

/-- What it is asked to send. -/
def ReplySaid (env : Env F N) (g : Got F) (v : Val F) (r : Vacation.Reply) : Prop :=
  Says env g .Subject r.subject ∧ Says env g .From r.from ∧ TextOf env v r.reason ∧ (r.mime = true ↔ Uses g .Mime)

/-- C120: the host is asked whether it has replied to the sender already exactly if the message may be replied to, given the
addresses after `:addresses`; it is asked for the sender together with the text after `:handle` or the reason, and for the time
after `:days` or `:seconds`. -/
theorem vacation_written (y : Args.Ext F) (has : Cap → Bool) {e : Entry} (he : commandEntry .Vacation = some e)
    {ts : List (Tok F)} {g : Got F} {r : List (Tok F)} (h : readEntry y has .Vacation e ts = some (g, r)) :
    ∃ i v, Fields.Vacation.of g = some i ∧ g.pos = [.val v] ∧ ∀ (env : Env F N), Vacation.Letters env.x →
      ∃ a, (∀ a', VacationSaid env g v a' ↔ a' = a) ∧ ∀ (c : Vacation.Ctx F) (q : Vacation.Query) (isNot : Bool),
        vacationTest env c i = some (q, isNot) ↔
          ∃ s, Vacation.MayReply env.x c a s ∧ q = Vacation.question c a s ∧ isNot = true := by
  obtain ⟨i, hi, -, hp, hper, hh, ha, -⟩ := vacation_fields y has he h
  refine ⟨i, _, hi, hp, fun env hl => ⟨_, fun a' => ?_, fun c q isNot => Vacation.test_vacation hl c _ q isNot⟩⟩
  obtain ⟨a1, a2, a3, a4⟩ := a'
  unfold VacationSaid
  simp only [says_iff hh, lists_iff ha, period_iff hper, Vacation.Args.mk.injEq]
  rfl

/-- C120: the reply goes to the sender that was looked at, with the subject, sender and text that are written in the script, and
a copy of it is filed as `:fcc` asks.

What is missing is what is missing in `reply_fields_partial` and `reply_to_sender_partial`: texts with line breaks, `:mime`, and
envelopes with more than one sender. -/
theorem vacation_reply_written_partial (y : Args.Ext F) (has : Cap → Bool) {e : Entry} (he : commandEntry .Vacation = some e)
    {ts : List (Tok F)} {g : Got F} {r : List (Tok F)} (h : readEntry y has .Vacation e ts = some (g, r)) :
    ∃ i v, Fields.Vacation.of g = some i ∧ g.pos = [.val v] ∧ ∀ (env : Env F N) (names : Tests.Str → Tests.Parsed → Bool)
      (raw : Tests.Field → Option Tests.Str) (date msgId : Tests.Str) (c : Vacation.Ctx F),
      CopySaid env g (vacation env names raw date msgId c i).2 ∧
      (∀ s, Vacation.Sender env.x c s →
        (∀ e ∈ c.envelope, e.1 = .from → Tests.isEmpty e.2 = false → Tests.text env.x.flt e.2 = s) →
        (vacation env names raw date msgId c i).1.2 = s) ∧
      ∃ m, (∀ m', ReplySaid env g v m' ↔ m' = m) ∧
        (¬ Uses g .Mime → Vacation.OneLine date → Vacation.OneLine msgId → Vacation.OneLine c.prefix → Vacation.OneLine c.defaultSubject → Vacation.OneLine c.userFrom →
          (∀ e ∈ c.envelope, Vacation.OneLine (Tests.text env.x.flt e.2)) → (∀ t, m.subject = some t → Vacation.OneLine t) →
          (∀ t, m.from = some t → Vacation.OneLine t) → (∀ h ∈ c.headers, ∀ t, h.2.parsed = .text t → Vacation.OneLine t) →
          (∀ h ∈ c.headers, ∀ t, raw h.2 = some t → Vacation.RawField t) →
          ∃ fields, Vacation.readMessage [] (vacation env names raw date msgId c i).1.1 = (fields, m.reason) ∧
            "Auto-Submitted: auto-replied".toList ∈ fields ∧ (∀ t, m.from = some t → "From: ".toList ++ t ∈ fields) ∧
            (∀ t, m.subject = some t → t ≠ [] → "Subject: ".toList ++ t ∈ fields)) := by
  obtain ⟨i, hi, hp, -, -, -, -, hs, hf, hm, hc⟩ := vacation_fields y has he h
  refine ⟨i, _, hi, hp, fun env names raw date msgId c => ⟨(copy_iff hc env _).2 rfl, ?_,
    ⟨i.subject.map (value env), i.sender.map (value env), value env i.reason, i.mime⟩, fun m' => ?_, ?_⟩⟩
  · intro s h1 h2
    exact Vacation.reply_to_sender_partial env.x names raw date msgId c _ s h1 h2
  · obtain ⟨a1, a2, a3, a4⟩ := m'
    unfold ReplySaid
    simp only [says_iff hs, says_iff hf, Vacation.Reply.mk.injEq, ← flag_iff hm, ← Bool.eq_iff_iff]
    rfl
  · intro h0 h1 h2 h3 h4 h5 h6 h7 h8 h9 h10
    obtain ⟨fields, k1, -, k2, k3, k4⟩ := Vacation.reply_fields_partial env.x names raw date msgId c
      ⟨i.subject.map (value env), i.sender.map (value env), value env i.reason, i.mime⟩
      (by
        cases hb : i.mime with
        | false => rfl
        | true => exact absurd ((flag_iff hm).1 hb) h0) h1 h2 h3 h4 h5 h6 h7 h8 h9 h10
    exact ⟨fields, k1, k2, k3, k4⟩

/-- What `notify` is asked to do. -/
def NotifySaid (env : Env F N) (g : Got F) (v : Val F) (a : Notify.Args) : Prop :=
  TextOf env v a.method ∧ Says env g .From a.from ∧ Says env g .Importance a.importance ∧ Lists env g .Options a.options ∧
    Says env g .Message a.message ∧ CopySaid env g a.fcc

/-- C120: `notify` does what has to be done for the method, sender, importance, options, message and copy that are written in
the script. -/
theorem notify_written (y : Args.Ext F) (has : Cap → Bool) {e : Entry} (he : commandEntry .Notify = some e)
    {ts : List (Tok F)} {g : Got F} {r : List (Tok F)} (h : readEntry y has .Notify e ts = some (g, r)) :
    ∃ i v, Fields.Notify.of g = some i ∧ g.pos = [.val v] ∧ ∀ (env : Env F N), ∃ a, (∀ a', NotifySaid env g v a' ↔ a' = a) ∧
      ∀ (x : Notify.Ext) (c : Notify.Ctx) (date msgId : Tests.Str) (res : Notify.Result),
        notify env x c date msgId i = res ↔ Notify.Does x c a date msgId res := by
  obtain ⟨i, hi, hp, hf, hm, ho, hms, hc⟩ := notify_fields_partial y has he h
  refine ⟨i, _, hi, hp, fun env => ⟨_, fun a' => ?_, fun x c date msgId res => Notify.notify_iff x c _ date msgId res⟩⟩
  obtain ⟨a1, a2, a3, a4, a5, a6⟩ := a'
  unfold NotifySaid
  simp only [says_iff hf, says_iff hm, lists_iff ho, says_iff hms, copy_iff hc, Notify.Args.mk.injEq]
  rfl

/-! ## Messages that are made -/

/-- The bytes of the text given with the tag `w`, if there is one. -/
def SaysBytes (env : Env F N) (m : Making) (g : Got F) (w : Word) (o : Option Build.Bytes) : Prop :=
  ∃ t, Says env g w t ∧ o = t.map m.encode

theorem saysBytes_iff {g : Got F} {w : Word} {b : Option (Val F)} (h : Stores g [w] One none b) (env : Env F N) (m : Making)
    (o : Option Build.Bytes) : SaysBytes env m g w o ↔ o = b.map fun v => m.encode (value env v) := by
  unfold SaysBytes
  simp only [says_iff h]
  constructor
  · rintro ⟨_, rfl, rfl⟩
    rw [Option.map_map]
    rfl
  · rintro rfl
    refine ⟨_, rfl, ?_⟩
    rw [Option.map_map]
    rfl

/-- What `replace` is asked to put in place. -/
def ReplaceSaid (env : Env F N) (m : Making) (g : Got F) (v : Val F) (q : Build.Replacement) : Prop :=
  (∃ t, TextOf env v t ∧ q.body = m.encode t) ∧ (q.mime = true ↔ Uses g .Mime) ∧ SaysBytes env m g .Subject q.subject ∧
    SaysBytes env m g .From q.from ∧ q.user = m.user ∧ q.now = m.now ∧ q.id = m.id

open Build in
/-- C120: `replace` puts what is written in the script in place of the message or of a part of it.

What is missing is what is missing in `replace_part_partial`: parts that have parts. -/
theorem replace_written_partial [DecidableEq N] (y : Args.Ext F) (has : Cap → Bool) {e : Entry}
    (he : commandEntry .Replace = some e)
    {ts : List (Tok F)} {g : Got F} {r : List (Tok F)} (h : readEntry y has .Replace e ts = some (g, r)) :
    ∃ i v, Fields.Replace.of g = some i ∧ g.pos = [.val v] ∧ ∀ (env : Env F N) (m : Making),
      ∃ q, (∀ q', ReplaceSaid env m g v q' ↔ q' = q) ∧ ∀ (ct : N) (x : Names N) (c : Build.Ctx N) (fuel : Nat) (p : Build.Part N),
        c.msg.parts[env.part]? = some p →
        (env.part = 0 → 0 < p.stop → p.stop ≤ c.msg.raw.length → ∀ kept new,
          List.Forall₂ (KeptAs x q c.msg.raw) p.headers kept → NewLines x q p.headers new →
          ∃ c', replace env m x c fuel i = some c' ∧ Writes ct c'.msg
            (kept.flatten ++ new ++ (if q.mime then [] else ascii "Content-Type: text/plain; charset=utf-8\r\n" ++ crlf)
              ++ q.body ++ c.msg.raw.drop p.stop)) ∧
        (env.part ≠ 0 → (∀ subs, p.content ≠ .multipart subs) → ∀ a b t, Shows c.msg.raw c.msg.parts 0 a b t →
          ∃ c', replace env m x c fuel i = some c' ∧ c'.msg.raw = c.msg.raw ∧ Writes ct c'.msg
            ((put env.part (if q.mime then .node env.part [] [] [] q.body
              else .node env.part [ascii "Content-Type: text/plain; charset=utf-8\r\n"] crlf [] q.body) t).text
              ++ c.msg.raw.drop b)) := by
  obtain ⟨i, hi, hp, hs, hf, hm⟩ := replace_fields y has he h
  refine ⟨i, _, hi, hp, fun env m => ⟨⟨m.encode (value env i.replacement), i.mime, i.subject.map fun v => m.encode (value env v),
    i.sender.map fun v => m.encode (value env v), m.user, m.now, m.id⟩, fun q' => ?_, fun ct x c fuel p hpart => ⟨?_, ?_⟩⟩⟩
  · obtain ⟨a1, a2, a3, a4, a5, a6, a7⟩ := q'
    unfold ReplaceSaid TextOf
    simp only [saysBytes_iff hs, saysBytes_iff hf, Build.Replacement.mk.injEq, ← flag_iff hm, ← Bool.eq_iff_iff,
      exists_eq_left]
    rfl
  · intro h0 h1 h2 kept new h3 h4
    rw [h0] at hpart
    unfold replace
    rw [h0]
    exact replace_message ct x c hpart h1 h2 _ h3 h4 fuel
  · intro h0 h1 a b t h2
    exact replace_part_partial ct x c h2 h0 hpart h1 _ fuel

/-- The header fields that texts give: name and value of each that has a colon, without the blanks around them. -/
inductive FieldsSaid (ws : Char → Bool) (encode : Tests.Str → Build.Bytes) : List Tests.Str → List (Build.Bytes × Build.Bytes) → Prop
  | nil : FieldsSaid ws encode [] []
  | skip {s ss fs} : ':' ∉ s → FieldsSaid ws encode ss fs → FieldsSaid ws encode (s :: ss) fs
  | field {n v n' v' ss fs} : ':' ∉ n → Trimmed ws n n' → Trimmed ws v v' → FieldsSaid ws encode ss fs →
      FieldsSaid ws encode ((n ++ ':' :: v) :: ss) ((encode n', encode v') :: fs)

theorem splitColon_none {s : Tests.Str} (h : ':' ∉ s) : splitColon s = none := by
  induction s with
  | nil => rfl
  | cons c s ih =>
    rw [List.mem_cons, not_or] at h
    rw [splitColon, if_neg (Ne.symm h.1), ih h.2]
    rfl

theorem splitColon_some {n : Tests.Str} (v : Tests.Str) (h : ':' ∉ n) : splitColon (n ++ ':' :: v) = some (n, v) := by
  induction n with
  | nil => rfl
  | cons c n ih =>
    rw [List.mem_cons, not_or] at h
    rw [List.cons_append, splitColon, if_neg (Ne.symm h.1), ih h.2]
    rfl

theorem splitColon_cases (s : Tests.Str) : ':' ∉ s ∨ ∃ n v, s = n ++ ':' :: v ∧ ':' ∉ n := by
  induction s with
  | nil => exact .inl (by simp)
  | cons c s ih =>
    by_cases hc : c = ':'
    · subst hc
      exact .inr ⟨[], s, rfl, by simp⟩
    · rcases ih with h | ⟨n, v, rfl, h⟩
      · exact .inl (by simp [h, Ne.symm hc])
      · exact .inr ⟨c :: n, v, rfl, by simp [h, Ne.symm hc]⟩

theorem fieldsSaid_iff (env : Env F N) (m : Making) (vs : List (Val F)) (fs : List (Build.Bytes × Build.Bytes)) :
    FieldsSaid env.x.ws m.encode (vs.map (value env)) fs ↔ fs = vs.filterMap (fieldGiven env m) := by
  have to_ : ∀ (vs : List (Val F)) fs, FieldsSaid env.x.ws m.encode (vs.map (value env)) fs → fs = vs.filterMap (fieldGiven env m) := by
    intro vs
    induction vs with
    | nil =>
      intro fs h
      cases h
      rfl
    | cons v vs ih =>
      intro fs h
      rw [List.map_cons] at h
      generalize hs : value env v = s at h
      cases h with
      | skip h1 h2 =>
        rw [List.filterMap_cons_none (by unfold fieldGiven; rw [hs, splitColon_none h1]; rfl)]
        exact ih _ h2
      | field h1 h2 h3 h4 =>
        rw [List.filterMap_cons_some (by unfold fieldGiven; rw [hs, splitColon_some _ h1]; rfl), ih _ h4,
          (trimmed_iff _ _ _).1 h2, (trimmed_iff _ _ _).1 h3]
        rfl
  refine ⟨to_ vs fs, ?_⟩
  rintro rfl
  induction vs with
  | nil => exact .nil
  | cons v vs ih =>
    rw [List.map_cons]
    rcases splitColon_cases (value env v) with h | ⟨n, t, hs, h⟩
    · rw [List.filterMap_cons_none (by unfold fieldGiven; rw [splitColon_none h]; rfl)]
      exact .skip h ih
    · rw [List.filterMap_cons_some (by unfold fieldGiven; rw [hs, splitColon_some _ h]; rfl), hs]
      exact .field h ((trimmed_iff _ _ _).2 rfl) ((trimmed_iff _ _ _).2 rfl) ih

/-- What `enclose` is asked to make. -/
def EncloseSaid (env : Env F N) (m : Making) (g : Got F) (v : Val F) (q : Build.Enclosure) : Prop :=
  (∃ t, TextOf env v t ∧ q.body = m.encode t) ∧ SaysBytes env m g .Subject q.given ∧ q.original = m.subject ∧ q.bnd = m.bnd ∧
    (∃ l, Lists env g .Headers l ∧ FieldsSaid env.x.ws m.encode l q.fields) ∧ q.user = m.user ∧ q.now = m.now ∧ q.id = m.id

open Build in
/-- C120: `enclose` makes a message of the text, the subject and the header fields that are written in the script, and of the
message as it was.

What is missing is what is missing in `enclose_partial`: `Content-Type` among the fields. -/
theorem enclose_written_partial [DecidableEq N] (y : Args.Ext F) (has : Cap → Bool) {e : Entry}
    (he : commandEntry .Enclose = some e)
    {ts : List (Tok F)} {g : Got F} {r : List (Tok F)} (h : readEntry y has .Enclose e ts = some (g, r)) :
    ∃ i v, Fields.Enclose.of g = some i ∧ g.pos = [.val v] ∧ ∀ (env : Env F N) (m : Making),
      ∃ q, (∀ q', EncloseSaid env m g v q' ↔ q' = q) ∧ ∀ (ct : N) (x : Names N) (c : Build.Ctx N) (w : Bytes), Whole ct c.msg w →
        x.other (ascii "Content-Type") = ct →
        (∀ n ∈ [ascii "Subject", ascii "From", ascii "Date", ascii "Message-ID"], x.other n ≠ ct) →
        (∀ f ∈ q.fields, x.other f.1 ≠ ct) → m.bnd ≠ [] → (34 : UInt8) ∉ m.bnd →
        Whole ct (enclose env m x c i).msg
          (shown (enclosureFields x q) ++ (crlf ++ ascii "--" ++ m.bnd ++ crlf)
            ++ ascii "Content-Type: text/plain; charset=utf-8\r\n" ++ crlf ++ q.body
            ++ (crlf ++ ascii "--" ++ m.bnd ++ crlf)
            ++ ascii "Content-Type: message/rfc822\r\n" ++ crlf ++ w
            ++ (crlf ++ ascii "--" ++ m.bnd ++ ascii "--" ++ crlf)) := by
  obtain ⟨i, hi, hp, hs, hh⟩ := enclose_fields y has he h
  refine ⟨i, _, hi, hp, fun env m => ⟨⟨m.encode (value env i.value), i.subject.map fun v => m.encode (value env v), m.subject, m.bnd,
    i.headers.filterMap (fieldGiven env m), m.user, m.now, m.id⟩, fun q' => ?_, fun ct x c w h1 h2 h3 h4 h5 h6 => ?_⟩⟩
  · obtain ⟨a1, a2, a3, a4, a5, a6, a7, a8⟩ := q'
    unfold EncloseSaid TextOf
    simp only [saysBytes_iff hs, lists_iff hh, fieldsSaid_iff, Build.Enclosure.mk.injEq, exists_eq_left]
    rfl
  · exact enclose_partial ct x c _ h1 h2 h3 h4 h5 h6

/-! ## Examples -/

/-- What an action does that is read with `commandEntry`. -/
def doneBy {α β : Type} (w : Word) (ts : List (Tok Int)) (of : Got Int → Option α) (run : α → Option β) : Option β :=
  (commandEntry w).bind fun e => (readEntry exArgs (fun _ => true) w e ts).bind fun p => (of p.1).bind run

def exEditing : Editing Nat := ⟨fun n => n = 2, fun c => c ≠ ' ', 3⟩

/-- Names and texts of the header fields. -/
def fieldsOf (ps : List (Mime.Part Nat Tests.Field)) : List (List (Nat × List Char)) :=
  ps.map fun p => p.headers.map fun h => (h.name, match h.value.parsed with
    | .text t => t
    | _ => [])

/-- `addheader " X" "ab\ncd"`, `addheader :last "X" "a"`, and `addheader "Y" "a"` where `Y` is protected -/
example : (doneBy .AddHeader [.string (bytes " X"), .string (bytes "ab\ncd")] AddHeader.of (addheader exEnv exEditing)).map fieldsOf =
      some [[(1, "abc".toList), (1, "12".toList), (2, []), (1, "Ab".toList)]] ∧
    (doneBy .AddHeader [.tag .Last, .string (bytes "X"), .string (bytes "a")] AddHeader.of (addheader exEnv exEditing)).map fieldsOf =
      some [[(1, "12".toList), (2, []), (1, "Ab".toList), (1, "a".toList)]] ∧
    (doneBy .AddHeader [.string (bytes "Y"), .string (bytes "a")] AddHeader.of (addheader exEnv exEditing)).map fieldsOf =
      some (fieldsOf exEnv.parts) := by
  decide +kernel

example : NewName exEnv exEditing (.text (bytes " X")) 1 ∧ ∀ n, ¬ NewName exEnv exEditing (.text (bytes "Y")) n := by
  refine ⟨⟨_, _, rfl, rfl, by decide +kernel, by decide +kernel, by decide +kernel⟩, ?_⟩
  rintro n ⟨s, t, rfl, rfl, -, h1, h2⟩
  have : exEnv.headerName ((Tests.text exEnv.x.flt (exEnv.eval (.text (bytes "Y")))).filter
    fun c => exEditing.alnum c || c == '-') = some 2 := by decide +kernel
  rw [this] at h1
  injection h1 with h1
  subst h1
  revert h2
  decide

/-- `deleteheader "X"`, `deleteheader :index 1 :last "X"`, `deleteheader :contains "X" ["c", "aB"]` -/
example : (doneBy .DeleteHeader [.string (bytes "X"), .semicolon] DeleteHeader.of (deleteheader exEnv exEditing 3)).map fieldsOf =
      some [[(2, [])]] ∧
    (doneBy .DeleteHeader [.tag .Index, .number 1, .tag .Last, .string (bytes "X"), .semicolon] DeleteHeader.of
      (deleteheader exEnv exEditing 3)).map fieldsOf = some [[(1, "12".toList), (2, [])]] ∧
    (doneBy .DeleteHeader [.tag .Contains, .string (bytes "X"), .bracketOpen, .string (bytes "c"), .comma, .string (bytes "ab"),
      .bracketClose] DeleteHeader.of (deleteheader exEnv exEditing 3)).map fieldsOf = some [[(1, "12".toList), (2, [])]] := by
  decide +kernel

/-- `vacation :days 7 :handle "h" :addresses ["u@y"] "away"` -/
example : doneBy .Vacation [.tag .Days, .number 7, .tag .Handle, .string (bytes "h"), .tag .Addresses, .bracketOpen,
      .string (bytes "u@y"), .bracketClose, .string (bytes "away")] Fields.Vacation.of
      (vacationTest exEnv (Vacation.exCtx "Hi".toList)) = some (⟨"_va@xh".toList, 7 * 86400, false⟩, true) := by
  decide +kernel

example : Vacation.Letters exEnv.x := Vacation.exLetters

/-- `vacation :subject "S" :from "f@g" :fcc "M" :flags "a  b" :create "away"` -/
example : doneBy .Vacation [.tag .Subject, .string (bytes "S"), .tag .From, .string (bytes "f@g"), .tag .Fcc, .string (bytes "M"),
      .tag .Flags, .string (bytes "a  b"), .tag .Create, .string (bytes "away")] Fields.Vacation.of
      (fun i => some ((fun r => (Vacation.readMessage [] r.1.1, r.1.2, r.2)) (vacation exEnv (fun _ _ => false) (fun _ => none)
        "D".toList "<1@h>".toList (Vacation.exCtx "Hi".toList) i))) =
    some ((["From: f@g", "To: a@x", "Subject: S", "Date: D", "Message-ID: <1@h>", "Auto-Submitted: auto-replied",
      "Content-type: text/plain; charset=utf-8"].map String.toList, "away".toList), "a@x".toList,
      some ⟨['M'], [['a'], ['b']], none, none, true⟩) := by
  decide +kernel

/-- `notify :importance "1" :message "m" "tel:1"` -/
example : doneBy .Notify [.tag .Importance, .string (bytes "1"), .tag .Message, .string (bytes "m"), .string (bytes "tel:1")]
      Fields.Notify.of (fun i => some (notify exEnv Notify.exExt Notify.exCtx [] [] i).events) =
    some [.notify "tel:1".toList none .high [] "m".toList] := by
  decide +kernel

def exMaking : Making where
  encode s := s.map fun c => c.toNat.toUInt8
  user := Build.ascii "u"
  now := Build.ascii "now"
  id := Build.ascii "<i>"
  bnd := Build.ascii "b"
  subject := some (Build.ascii "s")

/-- The same surroundings with header names that are their spelling. -/
def exMade : Env Int Build.Bytes where
  x := exEnv.x
  eval := exEnv.eval
  headerName := fun _ => none
  plain := fun _ => false
  parts := []
  part := 0
  envelope := []
  shift := fun _ s => some s
  getVariable := fun _ => none
  flags := none

/-- `replace :subject "t" "new"` -/
example : (doneBy .Replace [.tag .Subject, .string (bytes "t"), .string (bytes "new")] Replace.of
      (replace exMade exMaking Build.names Build.sample 9)).map (fun c => Build.build Build.ct 20 c.msg) =
    some (some (some (Build.ascii
      "Original-Subject: s\r\nTo: a\r\nFrom: u\r\nSubject: t\r\nDate: now\r\nMessage-ID: <i>\r\nContent-Type: text/plain; charset=utf-8\r\n\r\nnew"))) := by
  decide +kernel

/-- `enclose :headers ["X : y ", "z"] "text"` -/
example : (doneBy .Enclose [.tag .Headers, .bracketOpen, .string (bytes "X : y "), .comma, .string (bytes "z"), .bracketClose,
      .string (bytes "text")] Enclose.of (fun i => some (enclose exMade exMaking Build.names Build.sample i))).map
      (fun c => Build.build Build.ct 30 c.msg) =
    some (some (some (Build.ascii "Content-Type: multipart/mixed; boundary=\"b\"\r\nSubject: s\r\nX: y\r\nFrom: u\r\nDate: now\r\nMessage-ID: <i>\r\n\r\n--b\r\nContent-Type: text/plain; charset=utf-8\r\n\r\ntext\r\n--b\r\nContent-Type: message/rfc822\r\n\r\n"
      ++ Build.sample.msg.raw ++ Build.ascii "\r\n--b--\r\n"))) := by
  decide +kernel

end Sieve.Written
