import Verif.StoreModel

/-!
# C96–C99: variables are read as they were set; match variables; the body; `extracttext`
-/

namespace Sieve.Store
open SetVar (Variable stored Modifier)
open Hvar (Env MPart)

/-! ### The specification: a table -/

/-- Variables and their values; a slot that does not exist has none. -/
abbrev Table := Key → Option Variable

/-- The table with a new value for `k`. -/
def Table.write (σ : Table) (k : Key) (v : Variable) : Table := fun j => if j = k then some v else σ j

/-- The same, if `k` exists. -/
def Table.overwrite (σ : Table) (k : Key) (v : Variable) : Table := if σ k = none then σ else σ.write k v

/-- What an action may assign to: local variables the script has, global variables, and the envelope, which is text. -/
def Table.assign (σ : Table) (k : Key) (v : Variable) : Table :=
  match k with
  | .local _ => σ.overwrite k v
  | .global _ => σ.write k v
  | .envelope _ => σ.write k (.str v.text)
  | .match _ | .environment _ => σ

/-- The text of a part as `extracttext` sees it. -/
inductive PartText (x : Lib) : Body → List Char → Prop where
  | text {t} : PartText x (.text t) t
  | html {t} : PartText x (.html t) (x.htmlToText t)
  | binary {b} : PartText x (.binary b) []
  | multipart {l} : PartText x (.multipart l) []
  | message : PartText x .message []

/-- Modifiers one after the other. -/
inductive Modified (y : SetVar.Ext) (max : Nat) : List Modifier → List Char → List Char → Prop where
  | none {t} : Modified y max [] t t
  | one {m ms t u} : Modified y max ms (m.apply y max t) u → Modified y max (m :: ms) t u

/-- The text `extracttext` stores: nothing outside of `foreverypart`, otherwise the first characters of the text of the
current part, modified if there are any. -/
inductive Extracts (x : Lib) (y : SetVar.Ext) (max : Nat) (msg : Msg) (part : Nat) : Bool → Option Nat → List Modifier → List Char → Prop where
  | outside {first ms} : Extracts x y max msg part false first ms []
  | noPart {first ms} : msg.parts.length ≤ part → Extracts x y max msg part true first ms []
  | nothing {first ms pre p post t} : msg.parts = pre ++ p :: post → pre.length = part → PartText x p.body t →
      (t = [] ∨ first = some 0) → Extracts x y max msg part true first ms []
  | whole {ms pre p post t u} : msg.parts = pre ++ p :: post → pre.length = part → PartText x p.body t → t ≠ [] →
      Modified y max ms t u → Extracts x y max msg part true none ms u
  | first {n ms pre p post t rest u} : msg.parts = pre ++ p :: post → pre.length = part → PartText x p.body (t ++ rest) → t ≠ [] →
      (t.length = n ∨ t.length < n ∧ rest = []) → Modified y max ms t u → Extracts x y max msg part true (some n) ms u

/-- What becomes of the table. -/
inductive After (x : Lib) (y : SetVar.Ext) (max : Nat) (msg : Msg) (part : Nat) (inLoop : Bool) : Table → Op → Table → Prop where
  | set {σ k v} : After x y max msg part inLoop σ (.set k v) (σ.assign k (stored max v))
  | extract {σ first ms k t} : Extracts x y max msg part inLoop first ms t →
      After x y max msg part inLoop σ (.extract first ms k) (σ.assign k (.str t))
  | captureNone {σ} : After x y max msg part inLoop σ (.capture []) σ
  | capture {σ τ i t l} : After x y max msg part inLoop (σ.overwrite (.match i) (.str t)) (.capture l) τ →
      After x y max msg part inLoop σ (.capture ((i, t) :: l)) τ
  /-- the local variables of the range, if they exist, and the match variables of the bits -/
  | clear {σ τ : Table} {idx num mask} : (∀ k, τ k = σ k ∨ (τ k = some (.str []) ∧ σ k ≠ none)) →
      (∀ i, (σ (.local i)).isSome → idx ≤ i → i < idx + num → (∀ j < idx + num, (σ (.local j)).isSome) → τ (.local i) = some (.str [])) →
      (∀ i, (i < idx ∨ idx + num ≤ i ∨ ∃ j < idx + num, σ (.local j) = none) → τ (.local i) = σ (.local i)) →
      (∀ i, mask.testBit i = true → (σ (.match i)).isSome → τ (.match i) = some (.str [])) →
      (∀ i, mask.testBit i = false → τ (.match i) = σ (.match i)) →
      (∀ n, τ (.global n) = σ (.global n)) → (∀ n, τ (.environment n) = σ (.environment n)) →
      (∀ e, τ (.envelope e) = σ (.envelope e)) →
      After x y max msg part inLoop σ (.clear idx num mask) τ
  | hostGlobal {σ n v} : After x y max msg part inLoop σ (.hostGlobal n v) (σ.write (.global n) v)
  | hostEnv {σ n v} : After x y max msg part inLoop σ (.hostEnv n v) (σ.write (.environment n) v)
  | hostEnvelope {σ : Table} {e v} : σ (.envelope e) = none → After x y max msg part inLoop σ (.hostEnvelope e v) (σ.write (.envelope e) v)
  /-- a second value of the same kind is not what the variable is -/
  | hostEnvelopeAgain {σ : Table} {e v} : σ (.envelope e) ≠ none → After x y max msg part inLoop σ (.hostEnvelope e v) σ

/-- One after the other. -/
inductive Afters (x : Lib) (y : SetVar.Ext) (max : Nat) (msg : Msg) (part : Nat) (inLoop : Bool) : Table → List Op → Table → Prop where
  | none {σ} : Afters x y max msg part inLoop σ [] σ
  | one {σ τ υ op ops} : After x y max msg part inLoop σ op τ → Afters x y max msg part inLoop τ ops υ →
      Afters x y max msg part inLoop σ (op :: ops) υ

/-! ### Lemmas -/

theorem isEmpty_iff (v : Variable) : isEmpty v = true ↔ v = .str [] := by
  cases v <;> simp [isEmpty]

theorem clearOne_get (vs : List Variable) (i j : Nat) :
    (clearOne vs i)[j]? = if j = i then (vs[j]?).map fun _ => .str [] else vs[j]? := by
  unfold clearOne
  split
  · rename_i v hv
    split
    · rename_i he
      rw [isEmpty_iff] at he
      subst he
      split
      · rename_i h; subst h; rw [hv]; rfl
      · rfl
    · rw [List.getElem?_set]
      by_cases h : j = i
      · subst h
        have : j < vs.length := (List.getElem?_eq_some_iff.1 hv).1
        simp [this]
      · rw [if_neg (fun e => h e.symm), if_neg h]
  · rename_i hv
    split
    · rename_i h; subst h; rw [hv]; rfl
    · rfl

theorem clearMatch_get (m : Nat) (vs : List Variable) (j : Nat) :
    (clearMatch m vs)[j]? = if m.testBit j then (vs[j]?).map fun _ => .str [] else vs[j]? := by
  induction m using Nat.strongRecOn generalizing vs with
  | ind m ih =>
    unfold clearMatch
    split
    · rename_i h
      subst h
      simp
    · rename_i h
      rw [ih _ (xor_top_lt h), clearOne_get, Nat.testBit_xor, Nat.one_shiftLeft, Nat.testBit_two_pow]
      by_cases he : j = m.log2
      · subst he
        rw [Nat.testBit_log2 h]
        simp
      · simp [he, Ne.symm he, fun e : m.log2 = j => he e.symm]

theorem clearLocals_get (idx num : Nat) (vs : List Variable) (j : Nat) :
    (clearLocals idx num vs)[j]? =
      if idx + num ≤ vs.length ∧ idx ≤ j ∧ j < idx + num then some (.str []) else vs[j]? := by
  unfold clearLocals
  by_cases h : idx + num ≤ vs.length
  · rw [if_pos h, List.getElem?_mapIdx]
    by_cases h2 : idx ≤ j ∧ j < idx + num
    · have h3 : j < vs.length := by omega
      rw [if_pos ⟨h, h2⟩, List.getElem?_eq_getElem h3, Option.map_some]
      congr 1
      cases he : isEmpty vs[j]
      · rw [if_pos (by simp [h2, he])]
      · rw [if_neg (by simp [he])]
        exact (isEmpty_iff _).1 he
    · rw [if_neg (by tauto)]
      cases vs[j]? with
      | none => rfl
      | some v => rw [Option.map_some, if_neg (by tauto)]
  · rw [if_neg h, if_neg (by tauto)]

theorem find_put (e : Env) (v : Variable) (l : List (Env × Variable)) (f : Env) :
    ((putEnvelope e v l).find? fun p => p.1 = f).map (·.2) = if f = e then some v else (l.find? fun p => p.1 = f).map (·.2) := by
  induction l with
  | nil =>
    unfold putEnvelope
    by_cases h : f = e
    · subst h; simp
    · simp [h, Ne.symm h]
  | cons p l ih =>
    unfold putEnvelope
    by_cases h : p.1 = e
    · rw [if_pos h]
      by_cases h2 : f = e
      · subst h2; simp
      · have h3 : ¬ e = f := fun e => h2 e.symm
        simp [h, h2, h3]
    · rw [if_neg h]
      by_cases h2 : p.1 = f
      · have : ¬ f = e := fun e => h (h2.trans e)
        simp [h2, this]
      · rw [List.find?_cons_of_neg (by simpa using h2), ih, List.find?_cons_of_neg (by simpa using h2)]

theorem overwrite_apply (σ : Table) (k : Key) (v : Variable) (j : Key) :
    σ.overwrite k v j = if j = k then (σ j).map fun _ => v else σ j := by
  unfold Table.overwrite Table.write
  cases h : σ k with
  | none =>
    rw [if_pos rfl]
    split
    · rename_i e; rw [e, h]; rfl
    · rfl
  | some w =>
    rw [if_neg (by simp)]
    split
    · rename_i e; rw [e, h]; rfl
    · rfl

theorem put_table (c : Ctx) (k : Key) (v : Variable) : lookup (put c k v) = Table.assign (lookup c) k v := by
  funext j
  cases k with
  | «local» i =>
    simp only [put, Table.assign, overwrite_apply]
    cases j with
    | «local» j =>
      simp only [lookup, List.getElem?_set, Key.local.injEq]
      by_cases h : i = j
      · subst h
        by_cases hl : i < c.locals.length
        · simp [hl, List.getElem?_eq_getElem hl]
        · simp [hl, List.getElem?_eq_none (Nat.le_of_not_lt hl)]
      · simp [h, Ne.symm h]
    | _ => simp [lookup]
  | «match» i => rfl
  | global n =>
    simp only [put, Table.assign, Table.write]
    cases j with
    | global m => simp only [lookup, insert, Key.global.injEq]
    | _ => simp [lookup]
  | environment n => rfl
  | envelope e =>
    simp only [put, Table.assign, Table.write, setEnvelope]
    cases j with
    | envelope f => simp only [lookup, find_put, Key.envelope.injEq]
    | _ => simp [lookup]

theorem capture_table (x : Lib) (y : SetVar.Ext) (max : Nat) (c : Ctx) (l : List (Nat × List Char)) :
    After x y max c.msg c.part c.inLoop (lookup c) (.capture l) (lookup { c with matchv := setMatch c.matchv l }) := by
  have overwrite : ∀ (c : Ctx) i t, lookup { c with matchv := c.matchv.set i (.str t) } = Table.overwrite (lookup c) (.match i) (.str t) := by
    intro c i t
    funext j
    rw [overwrite_apply]
    cases j with
    | «match» j =>
      simp only [lookup, List.getElem?_set, Key.match.injEq]
      by_cases h : i = j
      · subst h
        by_cases hl : i < c.matchv.length
        · simp [hl, List.getElem?_eq_getElem hl]
        · simp [hl, List.getElem?_eq_none (Nat.le_of_not_lt hl)]
      · simp [h, Ne.symm h]
    | _ => simp [lookup]
  induction l generalizing c with
  | nil => exact .captureNone
  | cons p l ih =>
    obtain ⟨i, t⟩ := p
    refine .capture ?_
    rw [← overwrite]
    exact ih { c with matchv := c.matchv.set i (.str t) }

theorem modified_iff (y : SetVar.Ext) (max : Nat) (ms : List Modifier) (t u : List Char) :
    Modified y max ms t u ↔ u = ms.foldl (fun t m => m.apply y max t) t := by
  constructor
  · intro h
    induction h with
    | none => rfl
    | one _ ih => rw [ih]; rfl
  · rintro rfl
    induction ms generalizing t with
    | nil => exact .none
    | cons m ms ih => exact .one (ih _)

theorem partText_exists (x : Lib) (b : Body) : ∃ t, PartText x b t := by
  cases b with
  | text t => exact ⟨_, .text⟩
  | html t => exact ⟨_, .html⟩
  | binary b => exact ⟨_, .binary⟩
  | multipart l => exact ⟨_, .multipart⟩
  | message => exact ⟨_, .message⟩

theorem partText_unique {x : Lib} {b : Body} {t u : List Char} (h1 : PartText x b t) (h2 : PartText x b u) : t = u := by
  cases h1 <;> cases h2 <;> rfl

/-- The value the code computes. -/
def value (x : Lib) (y : SetVar.Ext) (max : Nat) (c : Ctx) (first : Option Nat) (ms : List Modifier) : List Char :=
  if c.inLoop then
    let t := extracted x c first
    if t = [] then t else ms.foldl (fun t m => m.apply y max t) t
  else []

theorem extractText_eq (x : Lib) (y : SetVar.Ext) (max : Nat) (c : Ctx) (first : Option Nat) (ms : List Modifier) (k : Key) :
    extractText x y max c first ms k = put c k (.str (value x y max c first ms)) := rfl

/-- What is cut off. -/
def cut (first : Option Nat) (t : List Char) : List Char := match first with
  | some n => t.take n
  | none => t

theorem extracted_of {x : Lib} {c : Ctx} {pre : List Part} {p : Part} {post : List Part} {t : List Char} (first : Option Nat)
    (h1 : c.msg.parts = pre ++ p :: post) (h2 : pre.length = c.part) (h3 : PartText x p.body t) : extracted x c first = cut first t := by
  have : c.msg.parts[c.part]? = some p := by rw [h1, ← h2, List.getElem?_append_right (Nat.le_refl _)]; simp
  unfold extracted
  rw [this, Option.map_some]
  cases h : p.body <;> rw [h] at h3 <;> cases h3 <;> cases first <;> simp [cut]

theorem extracts_iff (x : Lib) (y : SetVar.Ext) (max : Nat) (c : Ctx) (first : Option Nat) (ms : List Modifier) (t : List Char) :
    Extracts x y max c.msg c.part c.inLoop first ms t ↔ t = value x y max c first ms := by
  generalize hl : c.inLoop = b
  constructor
  · intro h
    unfold value
    rw [hl]
    cases h with
    | outside => rfl
    | noPart h =>
      have : c.msg.parts[c.part]? = none := List.getElem?_eq_none h
      simp [extracted, this]
    | nothing h1 h2 h3 h4 =>
      simp only [extracted_of first h1 h2 h3]
      rcases h4 with rfl | rfl
      · cases first <;> simp [cut]
      · simp [cut]
    | whole h1 h2 h3 h4 h5 =>
      simp only [extracted_of none h1 h2 h3, cut]
      rw [if_pos trivial, if_neg h4]
      exact (modified_iff ..).1 h5
    | @first n ms pre p post t rest u h1 h2 h3 h4 h5 h6 =>
      have : (t ++ rest).take n = t := by
        rcases h5 with h5 | ⟨h5, rfl⟩
        · rw [← h5, List.take_left' rfl]
        · rw [List.append_nil, List.take_of_length_le (by omega)]
      simp only [extracted_of _ h1 h2 h3, cut, this]
      rw [if_pos trivial, if_neg h4]
      exact (modified_iff ..).1 h6
  · rintro rfl
    unfold value
    rw [hl]
    cases b with
    | false => exact .outside
    | true =>
      rw [if_pos rfl]
      by_cases hp : c.part < c.msg.parts.length
      · have h1 : c.msg.parts = c.msg.parts.take c.part ++ c.msg.parts[c.part] :: c.msg.parts.drop (c.part + 1) := by
          rw [List.getElem_cons_drop, List.take_append_drop]
        have h2 : (c.msg.parts.take c.part).length = c.part := by simp; omega
        obtain ⟨t, ht⟩ := partText_exists x c.msg.parts[c.part].body
        simp only [extracted_of first h1 h2 ht]
        by_cases he : cut first t = []
        · rw [if_pos he, he]
          refine .nothing h1 h2 ht ?_
          cases first with
          | none => exact .inl he
          | some n =>
            simp only [cut, List.take_eq_nil_iff] at he
            rcases he with rfl | he
            · exact .inr rfl
            · exact .inl he
        · rw [if_neg he]
          cases first with
          | none => exact .whole h1 h2 ht he ((modified_iff ..).2 rfl)
          | some n =>
            refine .first (rest := t.drop n) h1 h2 (by rw [cut, List.take_append_drop]; exact ht) he ?_ ((modified_iff ..).2 rfl)
            simp only [cut, List.length_take, List.drop_eq_nil_iff]
            omega
      · have : c.msg.parts[c.part]? = none := List.getElem?_eq_none (by omega)
        simp only [extracted, this, Option.map_none, if_true]
        exact .noPart (by omega)

/-! ### The theorems -/

/-- **C96** What is read after an operation is what the table says. -/
theorem step_table (x : Lib) (y : SetVar.Ext) (max : Nat) (c : Ctx) (op : Op) :
    After x y max c.msg c.part c.inLoop (lookup c) op (lookup (step x y max c op)) := by
  cases op with
  | set k v =>
    simp only [step, setVariable, put_table]
    exact .set
  | extract first ms k =>
    simp only [step, extractText_eq, put_table]
    exact .extract ((extracts_iff ..).2 rfl)
  | capture l => exact capture_table x y max c l
  | clear idx num mask =>
    refine .clear ?_ ?_ ?_ ?_ ?_ (fun _ => rfl) (fun _ => rfl) (fun _ => rfl)
    · intro k
      cases k with
      | «local» i =>
        simp only [lookup, step, clearLocals_get]
        split
        · rename_i h
          refine .inr ⟨rfl, ?_⟩
          rw [Ne, List.getElem?_eq_none_iff]
          omega
        · exact .inl rfl
      | «match» i =>
        simp only [lookup, step, clearMatch_get]
        split
        · cases c.matchv[i]? with
          | none => exact .inl rfl
          | some v => exact .inr ⟨rfl, by simp⟩
        · exact .inl rfl
      | _ => exact .inl rfl
    · intro i _ h1 h2 h3
      simp only [lookup, step, clearLocals_get]
      rw [if_pos]
      refine ⟨?_, h1, h2⟩
      by_contra hn
      have := h3 c.locals.length (by omega)
      simp [lookup] at this
    · intro i h
      simp only [lookup, step, clearLocals_get]
      rw [if_neg]
      rintro ⟨h1, h2, h3⟩
      rcases h with h | h | ⟨j, h, h'⟩
      · omega
      · omega
      · simp only [lookup, List.getElem?_eq_none_iff] at h'
        omega
    · intro i h hs
      simp only [lookup, step, clearMatch_get, h, if_true]
      simp only [lookup] at hs
      obtain ⟨v, hv⟩ := Option.isSome_iff_exists.1 hs
      rw [hv]; rfl
    · intro i h
      simp [lookup, step, clearMatch_get, h]
  | hostGlobal n v =>
    have : lookup (step x y max c (.hostGlobal n v)) = Table.write (lookup c) (.global n) v := by
      funext j
      cases j with
      | global m => simp only [lookup, step, insert, Table.write, Key.global.injEq]
      | _ => simp [lookup, step, Table.write]
    rw [this]
    exact .hostGlobal
  | hostEnv n v =>
    have : lookup (step x y max c (.hostEnv n v)) = Table.write (lookup c) (.environment n) v := by
      funext j
      cases j with
      | environment m =>
        simp only [lookup, step, insert, Table.write, Key.environment.injEq]
        split <;> simp
      | _ => simp [lookup, step, Table.write]
    rw [this]
    exact .hostEnv
  | hostEnvelope e v =>
    by_cases h : lookup c (.envelope e) = none
    · have : lookup (step x y max c (.hostEnvelope e v)) = Table.write (lookup c) (.envelope e) v := by
        funext j
        cases j with
        | envelope f =>
          simp only [lookup, step, Table.write, Key.envelope.injEq, List.find?_append]
          simp only [lookup, Option.map_eq_none_iff] at h
          by_cases hf : f = e
          · subst hf
            simp [h]
          · have : ¬ e = f := fun h => hf h.symm
            simp [hf, this]
        | _ => simp [lookup, step, Table.write]
      rw [this]
      exact .hostEnvelope h
    · have : lookup (step x y max c (.hostEnvelope e v)) = lookup c := by
        funext j
        cases j with
        | envelope f =>
          simp only [lookup, step, List.find?_append]
          by_cases hf : f = e
          · subst hf
            simp only [lookup, Option.map_eq_none_iff] at h
            cases hh : c.envelope.find? fun p => p.1 = f with
            | none => exact absurd hh h
            | some p => simp
          · have : ¬ e = f := fun h => hf h.symm
            simp [this]
        | _ => rfl
      rw [this]
      exact .hostEnvelopeAgain h

/-- Setting variables changes neither the message nor the current part. -/
theorem step_message (x : Lib) (y : SetVar.Ext) (max : Nat) (c : Ctx) (op : Op) :
    (step x y max c op).msg = c.msg ∧ (step x y max c op).part = c.part ∧ (step x y max c op).inLoop = c.inLoop := by
  have hput : ∀ k v, (put c k v).msg = c.msg ∧ (put c k v).part = c.part ∧ (put c k v).inLoop = c.inLoop := by
    intro k v
    cases k <;> exact ⟨rfl, rfl, rfl⟩
  cases op with
  | set k v => exact hput _ _
  | extract first ms k => exact hput _ _
  | _ => exact ⟨rfl, rfl, rfl⟩

/-- **C96** In any sequence of operations variables are read as the table says.
The full claim would be about the test `envelope` too (`envelope_others_remain`). -/
theorem run_table_partial (x : Lib) (y : SetVar.Ext) (max : Nat) (c : Ctx) (ops : List Op) :
    Afters x y max c.msg c.part c.inLoop (lookup c) ops (lookup (run x y max c ops)) := by
  induction ops generalizing c with
  | nil => exact .none
  | cons op ops ih =>
    refine .one (step_table x y max c op) ?_
    have h := ih (step x y max c op)
    obtain ⟨h1, h2, h3⟩ := step_message x y max c op
    rwa [h1, h2, h3] at h

theorem clear_unique {σ τ υ : Table} {idx num mask : Nat} {x : Lib} {y : SetVar.Ext} {max : Nat} {msg : Msg} {part : Nat} {b : Bool}
    (h1 : After x y max msg part b σ (.clear idx num mask) τ) (h2 : After x y max msg part b σ (.clear idx num mask) υ) : τ = υ := by
  cases h1 with
  | clear a1 a2 a3 a4 a5 a6 a7 a8 =>
    cases h2 with
    | clear b1 b2 b3 b4 b5 b6 b7 b8 =>
      funext k
      cases k with
      | global n => rw [a6, b6]
      | environment n => rw [a7, b7]
      | envelope e => rw [a8, b8]
      | «match» i =>
        cases hm : mask.testBit i with
        | false => rw [a5 i hm, b5 i hm]
        | true =>
          cases hs : σ (.match i) with
          | none =>
            rcases a1 (.match i) with h | ⟨_, h⟩ <;> rcases b1 (.match i) with h' | ⟨_, h'⟩
            · rw [h, h']
            · exact absurd hs h'
            · exact absurd hs h
            · exact absurd hs h
          | some v => rw [a4 i hm (by rw [hs]; rfl), b4 i hm (by rw [hs]; rfl)]
      | «local» i =>
        by_cases hr : idx ≤ i ∧ i < idx + num ∧ ∀ j < idx + num, (σ (.local j)).isSome
        · rw [a2 i (hr.2.2 i hr.2.1) hr.1 hr.2.1 hr.2.2, b2 i (hr.2.2 i hr.2.1) hr.1 hr.2.1 hr.2.2]
        · have : i < idx ∨ idx + num ≤ i ∨ ∃ j < idx + num, σ (.local j) = none := by
            by_cases h1 : i < idx
            · exact .inl h1
            · by_cases h2 : idx + num ≤ i
              · exact .inr (.inl h2)
              · refine .inr (.inr ?_)
                by_contra hn
                refine hr ⟨by omega, by omega, fun j hj => ?_⟩
                cases hs : σ (.local j) with
                | none => exact absurd ⟨j, hj, hs⟩ hn
                | some v => rfl
          rw [a3 i this, b3 i this]

/-- The text `extracttext` stores is determined by the message. -/
theorem extracts_unique {x : Lib} {y : SetVar.Ext} {max : Nat} {msg : Msg} {part : Nat} {b : Bool} {first : Option Nat} {ms : List Modifier}
    {t u : List Char} (h1 : Extracts x y max msg part b first ms t) (h2 : Extracts x y max msg part b first ms u) : t = u := by
  have e := fun t => extracts_iff x y max ⟨[], [], fun _ => none, fun _ => none, fun _ => none, [], msg, part, b, []⟩ first ms t
  exact ((e t).1 h1).trans ((e u).1 h2).symm

/-- **C96** The table after an operation is determined. -/
theorem after_unique {x : Lib} {y : SetVar.Ext} {max : Nat} {msg : Msg} {part : Nat} {b : Bool} {σ τ υ : Table} {op : Op}
    (h1 : After x y max msg part b σ op τ) (h2 : After x y max msg part b σ op υ) : τ = υ := by
  cases op with
  | set k v => cases h1; cases h2; rfl
  | extract first ms k =>
    cases h1 with
    | extract h1 =>
      cases h2 with
      | extract h2 => rw [extracts_unique h1 h2]
  | capture l =>
    induction l generalizing σ with
    | nil => cases h1; cases h2; rfl
    | cons p l ih =>
      cases h1 with
      | capture h1 =>
        cases h2 with
        | capture h2 => exact ih h1 h2
  | clear idx num mask => exact clear_unique h1 h2
  | hostGlobal n v => cases h1; cases h2; rfl
  | hostEnv n v => cases h1; cases h2; rfl
  | hostEnvelope e v =>
    cases h1 with
    | hostEnvelope a =>
      cases h2 with
      | hostEnvelope b => rfl
      | hostEnvelopeAgain b => exact absurd a b
    | hostEnvelopeAgain a =>
      cases h2 with
      | hostEnvelope b => exact absurd b a
      | hostEnvelopeAgain b => rfl

/-- **C96** A variable that was set is read as it was set (cut to the limit), and every other variable as before. -/
theorem set_get (max : Nat) (c : Ctx) (k : Key) (v : Variable)
    (hk : (∃ i, k = .local i ∧ i < c.locals.length) ∨ ∃ n, k = .global n) (j : Key) :
    lookup (setVariable max c k v) j = if j = k then some (stored max v) else lookup c j := by
  rw [setVariable, put_table]
  rcases hk with ⟨i, rfl, hi⟩ | ⟨n, rfl⟩
  · have : lookup c (.local i) ≠ none := by simp [lookup, hi]
    simp [Table.assign, Table.overwrite, this, Table.write]
  · rfl

/-- **C96** A part of the envelope that was set is read as the text it was set to, the host is told the same text, and all else is as before. -/
theorem set_envelope (max : Nat) (c : Ctx) (e : Env) (v : Variable) :
    (∀ j, lookup (setVariable max c (.envelope e) v) j = if j = .envelope e then some (.str (stored max v).text) else lookup c j) ∧
      (setVariable max c (.envelope e) v).events = [(e, (stored max v).text)] :=
  ⟨fun j => by rw [setVariable, put_table]; rfl, rfl⟩

/-- **C97** The match variables at the bits of the number are empty afterwards, and the others are as before; how many there are does not change. -/
theorem clear_match (mask : Nat) (vs : List Variable) :
    (clearMatch mask vs).length = vs.length ∧ ∀ (i : Nat) (v : Variable), vs[i]? = some v →
      (clearMatch mask vs)[i]? = some (if mask.testBit i then .str [] else v) := by
  constructor
  · have h1 := fun j => clearMatch_get mask vs j
    rcases Nat.lt_trichotomy (clearMatch mask vs).length vs.length with h | h | h
    · have := h1 (clearMatch mask vs).length
      rw [List.getElem?_eq_none (Nat.le_refl _), List.getElem?_eq_getElem h] at this
      split at this <;> simp at this
    · exact h
    · have := h1 vs.length
      rw [List.getElem?_eq_none (Nat.le_refl vs.length), List.getElem?_eq_getElem h] at this
      split at this <;> simp at this
  · intro i v h
    rw [clearMatch_get, h]
    split <;> rfl

/-- **C97** What a test captures is read back: the last text given for a variable the script has, and other variables are as before. -/
theorem captured (vs : List Variable) (l : List (Nat × List Char)) (i : Nat) (v : Variable) (hv : vs[i]? = some v) :
    (∀ pre t post, l = pre ++ (i, t) :: post → (∀ p ∈ post, p.1 ≠ i) → (setMatch vs l)[i]? = some (.str t)) ∧
      ((∀ p ∈ l, p.1 ≠ i) → (setMatch vs l)[i]? = some v) := by
  have other : ∀ (l : List (Nat × List Char)) (vs : List Variable) (v : Variable), vs[i]? = some v → (∀ p ∈ l, p.1 ≠ i) →
      (setMatch vs l)[i]? = some v := by
    intro l
    induction l with
    | nil => intro vs v h _; exact h
    | cons p l ih =>
      intro vs v h hp
      obtain ⟨j, t⟩ := p
      refine ih _ _ ?_ fun p hm => hp p (by simp [hm])
      rw [List.getElem?_set_ne (by simpa using hp (j, t) (by simp))]
      exact h
  refine ⟨?_, other l vs v hv⟩
  rintro pre t post rfl hpost
  induction pre generalizing vs v with
  | nil =>
    refine other post _ _ ?_ hpost
    rw [List.getElem?_set_self (List.getElem?_eq_some_iff.1 hv).1]
  | cons p pre ih =>
    obtain ⟨j, u⟩ := p
    have hl : i < (vs.set j (.str u)).length := by rw [List.length_set]; exact (List.getElem?_eq_some_iff.1 hv).1
    exact ih _ _ (List.getElem?_eq_getElem hl)

/-! ### The body and the current part -/

/-- The value of `body.text`, `body.html`, `part.text` and so on. -/
inductive PartValue (x : Lib) (c : Ctx) : MPart → Option Variable → Prop where
  | text {v i rest p t} : c.msg.textBody = i :: rest → c.msg.parts[i]? = some p → p.body = .text t → PartValue x c (.textBody v) (some (.str t))
  | textOfHtml {i rest p t} : c.msg.textBody = i :: rest → c.msg.parts[i]? = some p → p.body = .html t →
      PartValue x c (.textBody true) (some (.str (x.htmlToText t)))
  | html {v i rest p t} : c.msg.htmlBody = i :: rest → c.msg.parts[i]? = some p → p.body = .html t → PartValue x c (.htmlBody v) (some (.str t))
  | htmlOfText {i rest p t} : c.msg.htmlBody = i :: rest → c.msg.parts[i]? = some p → p.body = .text t →
      PartValue x c (.htmlBody true) (some (.str (x.textToHtml t)))
  | contents {p t} : c.msg.parts[c.part]? = some p → (p.body = .text t ∨ p.body = .html t) → PartValue x c .contents (some (.str t))
  | binary {p b} : c.msg.parts[c.part]? = some p → p.body = .binary b → PartValue x c .contents (some (.str (x.lossy b)))
  | raw {p pre b post} : c.msg.parts[c.part]? = some p → c.msg.raw = pre ++ b ++ post → pre.length = p.offBody →
      (pre ++ b).length = p.offEnd → PartValue x c .raw (some (.str (x.lossy b)))

/-- **C98** The variables for the body and the current part have the value of the part they name, and no other.
The full claim would hold after `replace` and `enclose` too (`replaced_body_lost`, `enclosed_body_lost`). -/
theorem part_value_partial (x : Lib) (c : Ctx) (m : MPart) (v : Variable) : partVariable x c m = some v ↔ PartValue x c m (some v) := by
  constructor
  · intro h
    cases m with
    | textBody b =>
      simp only [partVariable, Option.bind_eq_some_iff] at h
      obtain ⟨i, hi, p, hp, h⟩ := h
      obtain ⟨rest, hr⟩ : ∃ rest, c.msg.textBody = i :: rest := by
        cases ht : c.msg.textBody with
        | nil => rw [ht] at hi; cases hi
        | cons a l => rw [ht] at hi; cases hi; exact ⟨l, rfl⟩
      cases hb : p.body with
      | text t => rw [hb] at h; cases h; exact .text hr hp hb
      | html t =>
        rw [hb] at h
        cases b with
        | false => cases h
        | true => cases h; exact .textOfHtml hr hp hb
      | _ => rw [hb] at h; cases h
    | htmlBody b =>
      simp only [partVariable, Option.bind_eq_some_iff] at h
      obtain ⟨i, hi, p, hp, h⟩ := h
      obtain ⟨rest, hr⟩ : ∃ rest, c.msg.htmlBody = i :: rest := by
        cases ht : c.msg.htmlBody with
        | nil => rw [ht] at hi; cases hi
        | cons a l => rw [ht] at hi; cases hi; exact ⟨l, rfl⟩
      cases hb : p.body with
      | html t => rw [hb] at h; cases h; exact .html hr hp hb
      | text t =>
        rw [hb] at h
        cases b with
        | false => cases h
        | true => cases h; exact .htmlOfText hr hp hb
      | _ => rw [hb] at h; cases h
    | contents =>
      simp only [partVariable, Option.bind_eq_some_iff] at h
      obtain ⟨p, hp, h⟩ := h
      cases hb : p.body with
      | text t => rw [hb] at h; cases h; exact .contents hp (.inl hb)
      | html t => rw [hb] at h; cases h; exact .contents hp (.inr hb)
      | binary b => rw [hb] at h; cases h; exact .binary hp hb
      | _ => rw [hb] at h; cases h
    | raw =>
      simp only [partVariable, Option.bind_eq_some_iff, Option.map_eq_some_iff] at h
      obtain ⟨p, hp, b, hb, rfl⟩ := h
      unfold Hvar.get at hb
      split at hb
      · rename_i hab
        injection hb with hb
        refine .raw (pre := c.msg.raw.take p.offBody) (post := c.msg.raw.drop p.offEnd) hp ?_ (by simp; omega) ?_
        · have : c.msg.raw.take p.offBody ++ (c.msg.raw.take p.offEnd).drop p.offBody = c.msg.raw.take p.offEnd := by
            have e : c.msg.raw.take p.offBody = (c.msg.raw.take p.offEnd).take p.offBody := by
              rw [List.take_take, Nat.min_eq_left hab.1]
            rw [e, List.take_append_drop]
          rw [← hb, this, List.take_append_drop]
        · rw [← hb]
          simp
          omega
      · cases hb
  · intro h
    cases h with
    | text h1 h2 h3 => simp [partVariable, h1, h2, h3]
    | textOfHtml h1 h2 h3 => simp [partVariable, h1, h2, h3]
    | html h1 h2 h3 => simp [partVariable, h1, h2, h3]
    | htmlOfText h1 h2 h3 => simp [partVariable, h1, h2, h3]
    | contents h1 h2 => rcases h2 with h2 | h2 <;> simp [partVariable, h1, h2]
    | binary h1 h2 => simp [partVariable, h1, h2]
    | @raw p pre b post h1 h2 h3 h4 =>
      have : Hvar.get c.msg.raw p.offBody p.offEnd = some b := by
        rw [h2, ← h3, ← h4]
        unfold Hvar.get
        rw [if_pos ⟨by simp, by simp⟩, List.take_left' rfl, List.drop_left' rfl]
      simp [partVariable, h1, this]

/-- **C98 fails** after `replace`, if the text body is to be the new text: the list of text bodies still names a part that is gone. -/
theorem replaced_body_lost (x : Lib) (c : Ctx) (t : List Char) (p : Part) (q : List Part) (hp : c.msg.parts = p :: q)
    (i : Nat) (rest : List Nat) (hi : c.msg.textBody = (i + 1) :: rest) (b : Bool) :
    partVariable x { c with msg := replaceAll c.msg t, part := 0 } (.textBody b) = none ∧
      partVariable x { c with msg := replaceAll c.msg t, part := 0 } .contents = some (.str t) := by
  simp [partVariable, replaceAll, hp, hi]

/-- **C98 fails** after `enclose`: there is a text part in the message, whose root has all other parts, but no text body. -/
theorem enclosed_body_lost (x : Lib) (c : Ctx) (t : List Char) (b : Bool) :
    partVariable x { c with msg := encloseAll c.msg t, part := 0 } (.textBody b) = none ∧
      ∃ i is p root, (encloseAll c.msg t).parts[0]? = some root ∧ root.body = .multipart is ∧ i ∈ is ∧
        (∀ j, j ∈ is ↔ 0 < j ∧ j < (encloseAll c.msg t).parts.length) ∧
        (encloseAll c.msg t).parts[i]? = some p ∧ p.body = .text t := by
  refine ⟨rfl, 1, [1, 2], ⟨.text t, 0, 0⟩, ⟨.multipart [1, 2], 0, 0⟩, rfl, rfl, by simp, fun j => ?_, rfl, rfl⟩
  simp only [encloseAll, List.mem_cons, List.not_mem_nil, or_false, List.length_cons, List.length_nil]
  omega

/-! ### `extracttext` -/

/-- **C99** `extracttext` stores the text described by `Extracts` in its variable and changes no other one. -/
theorem extract_stores (x : Lib) (y : SetVar.Ext) (max : Nat) (c : Ctx) (first : Option Nat) (ms : List Modifier) (k : Key) (t : List Char)
    (h : Extracts x y max c.msg c.part c.inLoop first ms t) :
    lookup (extractText x y max c first ms k) = Table.assign (lookup c) k (.str t) := by
  rw [extractText_eq, put_table, (extracts_iff ..).1 h]

/-- **C99** There always is such a text. -/
theorem extract_exists (x : Lib) (y : SetVar.Ext) (max : Nat) (c : Ctx) (first : Option Nat) (ms : List Modifier) :
    ∃ t, Extracts x y max c.msg c.part c.inLoop first ms t := ⟨_, (extracts_iff ..).2 rfl⟩

/-- **C99** `:first n` is a limit in characters, if nothing modifies the text. -/
theorem extract_first (x : Lib) (y : SetVar.Ext) (max : Nat) (msg : Msg) (part : Nat) (b : Bool) (n : Nat) (t : List Char)
    (h : Extracts x y max msg part b (some n) [] t) : t.length ≤ n := by
  cases h with
  | outside => simp
  | noPart => simp
  | nothing => simp
  | first h1 h2 h3 h4 h5 h6 =>
    cases h6
    omega

/-- **C21 fails** for `extracttext`: the text of a part is stored whatever its length, in bytes of UTF-8. -/
theorem extract_unlimited (x : Lib) (y : SetVar.Ext) (max : Nat) (c : Ctx) (n : List Char) (t : List Char) (pre post : List Part) (p : Part)
    (hm : c.msg.parts = pre ++ p :: post) (hp : pre.length = c.part) (hl : c.inLoop = true) (hb : p.body = .text t) (ht : max < byteLen t) :
    lookup (extractText x y max c none [] (.global n)) (.global n) = some (.str t) ∧ max < (Variable.str t).len := by
  refine ⟨?_, ht⟩
  have hne : t ≠ [] := by
    rintro rfl
    simp [byteLen] at ht
  have : Extracts x y max c.msg c.part c.inLoop none [] t := by
    rw [hl]
    exact .whole hm hp (by rw [hb]; exact .text) hne .none
  rw [extract_stores x y max c none [] _ t this]
  simp [Table.assign, Table.write]

/-- **C99** Such a variable is within the limit if its text is cut to a quarter of it. -/
theorem extract_limited_partial (x : Lib) (y : SetVar.Ext) (max : Nat) (msg : Msg) (part : Nat) (b : Bool) (n : Nat) (t : List Char)
    (h : Extracts x y max msg part b (some n) [] t) (hn : 4 * n ≤ max) : byteLen t ≤ max := by
  have h1 := extract_first x y max msg part b n t h
  have h2 : ∀ t : List Char, byteLen t ≤ 4 * t.length := by
    intro t
    induction t with
    | nil => simp [byteLen]
    | cons c t ih =>
      have := Char.utf8Size_le_four c
      simp [byteLen] at ih ⊢
      omega
  have := h2 t
  omega

/-- The envelope may have a value several times, as with several recipients. Setting it changes the first and leaves the others. -/
theorem envelope_first (e : Env) (v : Variable) (pre : List (Env × Variable)) (old : Variable) (post : List (Env × Variable))
    (hpre : ∀ p ∈ pre, p.1 ≠ e) : putEnvelope e v (pre ++ (e, old) :: post) = pre ++ (e, v) :: post := by
  induction pre with
  | nil => simp [putEnvelope]
  | cons p pre ih =>
    rw [List.cons_append, putEnvelope, if_neg (hpre p (by simp)), ih fun q hq => hpre q (by simp [hq])]
    rfl

/-- **C96 fails** for the test `envelope`, if it is to see what was set: the other recipients are still there. -/
theorem envelope_others_remain (max : Nat) (c : Ctx) (v : Variable) (a b : Variable) (post : List (Env × Variable))
    (h : c.envelope = (.to, a) :: (.to, b) :: post) : (Env.to, b) ∈ (setVariable max c (.envelope .to) v).envelope := by
  simp only [setVariable, put, setEnvelope]
  rw [h, show (Env.to, a) :: (Env.to, b) :: post = [] ++ (Env.to, a) :: (Env.to, b) :: post from rfl, envelope_first .to _ [] a _ (by simp)]
  simp

/-! ### Cases -/

def someCtx : Ctx :=
  ⟨[.str ['a'], .int 3], [.str ['m']], fun _ => none, fun _ => none, fun n => if n = ['n'] then some (.str ['S']) else none,
    [(.to, .str ['x']), (.to, .str ['y'])], ⟨[65, 66, 67], [⟨.multipart [1], 0, 3⟩, ⟨.text ['h', 'e', 'y'], 1, 3⟩], [1], []⟩, 1, true, []⟩
def noLib : Lib := ⟨id, id, fun _ => []⟩
def noMods : SetVar.Ext := ⟨id, id, fun c => [c], fun c => [c], fun s _ _ => s⟩

example : Extracts noLib noMods 10 someCtx.msg someCtx.part someCtx.inLoop (some 2) [] ['h', 'e'] :=
  .first (pre := [⟨.multipart [1], 0, 3⟩]) (rest := ['y']) rfl rfl .text (by simp) (.inl rfl) .none
example : PartValue noLib someCtx (.textBody false) (some (.str ['h', 'e', 'y'])) := .text rfl rfl rfl
example : lookup someCtx (.environment ['n']) = some (.str ['S']) := rfl
example : stored 10 (.str ['b']) = .str ['b'] := rfl
example : lookup (run noLib noMods 10 someCtx [.set (.local 0) (.str ['b']), .set (.local 7) (.str ['c'])]) (.local 0) = some (.str ['b']) := rfl
/-- two variables cleared, and the match variable -/
example : lookup (run noLib noMods 10 someCtx [.capture [(0, ['q'])], .clear 0 2 1]) (.local 1) = some (.str []) := rfl
example : (Env.to, Variable.str ['y']) ∈ (setVariable 10 someCtx (.envelope .to) (.str ['z'])).envelope :=
  envelope_others_remain 10 someCtx _ _ _ _ rfl
/-- a message with a text longer than the limit -/
example : lookup (extractText noLib noMods 2 someCtx none [] (.global ['g'])) (.global ['g']) = some (.str ['h', 'e', 'y']) :=
  (extract_unlimited noLib noMods 2 someCtx ['g'] _ [⟨.multipart [1], 0, 3⟩] [] _ rfl rfl rfl rfl (by decide)).1

end Sieve.Store
