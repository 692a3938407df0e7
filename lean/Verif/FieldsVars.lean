import Verif.FieldsLemmas

/-! # The instructions of commands and tests: each variable holds what its tags say -/

namespace Sieve.Fields

open Sieve.Args

variable {F : Type} {α β : Type}

/-! ## Tables -/

theorem lookupRel_spec {s : List UInt8} (h : s ∈ ["gt", "ge", "lt", "le", "eq", "ne"].map bytes) :
    ∃ n r, (n, r) ∈ relNames ∧ s = bytes n ∧ lookupRel s = some r := by
  simp only [List.map_cons, List.map_nil, List.mem_cons, List.not_mem_nil, or_false] at h
  rcases h with rfl | rfl | rfl | rfl | rfl | rfl
  · exact ⟨"gt", .gt, by decide, rfl, by decide +kernel⟩
  · exact ⟨"ge", .ge, by decide, rfl, by decide +kernel⟩
  · exact ⟨"lt", .lt, by decide, rfl, by decide +kernel⟩
  · exact ⟨"le", .le, by decide, rfl, by decide +kernel⟩
  · exact ⟨"eq", .eq, by decide, rfl, by decide +kernel⟩
  · exact ⟨"ne", .ne, by decide, rfl, by decide +kernel⟩

theorem lookupComparator_spec (s : List UInt8) :
    ComparatorMeans (F := F) .Comparator (.text s) (lookupComparator s) := by
  unfold lookupComparator
  split
  · rename_i h; subst h; exact .known (n := "i;octet") (by simp [comparatorNames])
  · split
    · rename_i h; subst h; exact .known (n := "i;ascii-casemap") (by simp [comparatorNames])
    · split
      · rename_i h; subst h; exact .known (n := "i;ascii-numeric") (by simp [comparatorNames])
      · rename_i h1 h2 h3
        refine .other ?_
        intro p hp
        simp only [comparatorNames, List.mem_cons, List.not_mem_nil, or_false] at hp
        rcases hp with rfl | rfl | rfl
        · exact h1
        · exact h2
        · exact h3

theorem oneOf_single {w : String} {s : List UInt8} : OneOf [w] s ↔ lower s = bytes w := by
  simp [OneOf]

theorem splitComma_ne (s : List UInt8) : splitComma s ≠ [] := by
  cases s with
  | nil => simp [splitComma]
  | cons c s =>
    rw [splitComma]
    split
    · simp
    · split <;> simp

theorem splitComma_pieces (s : List UInt8) : Pieces s (splitComma s) := by
  refine ⟨splitComma_ne s, ?_⟩
  induction s with
  | nil => exact ⟨by simp [splitComma], by simp [splitComma]⟩
  | cons c s ih =>
    obtain ⟨h1, h2⟩ := ih
    rw [splitComma]
    split
    · rename_i hc
      refine ⟨?_, ?_⟩
      · intro p hp
        rcases List.mem_cons.1 hp with rfl | hp
        · simp
        · exact h1 p hp
      · cases hs : splitComma s with
        | nil => exact absurd hs (splitComma_ne s)
        | cons q qs =>
          rw [hs] at h2
          rw [List.intercalate_cons_cons, ← h2, hc]
          rfl
    · rename_i hc
      cases hs : splitComma s with
      | nil => exact absurd hs (splitComma_ne s)
      | cons q qs =>
        rw [hs] at h1 h2
        refine ⟨?_, ?_⟩
        · intro p hp
          rcases List.mem_cons.1 hp with rfl | hp
          · intro hm
            rcases List.mem_cons.1 hm with hm | hm
            · exact hc hm.symm
            · exact h1 q List.mem_cons_self hm
          · exact h1 p (List.mem_cons_of_mem _ hp)
        · cases qs with
          | nil => rw [h2]; simp
          | cons q' qs =>
            rw [List.intercalate_cons_cons] at h2 ⊢
            rw [h2]; rfl

/-- The item of one piece, as in `readDsn`. -/
def itemOf (i : List UInt8) : Option NotifyItem :=
  if lower (trim i) = bytes "success" then some NotifyItem.success
  else if lower (trim i) = bytes "failure" then some .failure
  else if lower (trim i) = bytes "delay" then some .delay
  else none

theorem itemName_of {p : List UInt8} {i : NotifyItem} (h : itemOf p = some i) : ItemName (trim p) i := by
  unfold itemOf at h
  split at h
  · injection h with h; subst h; exact .success (oneOf_single.2 ‹_›)
  · split at h
    · injection h with h; subst h; exact .failure (oneOf_single.2 ‹_›)
    · split at h
      · injection h with h; subst h; exact .delay (oneOf_single.2 ‹_›)
      · cases h

theorem no_itemName {p : List UInt8} (h : itemOf p = none) (i : NotifyItem) : ¬ ItemName (trim p) i := by
  intro hi
  unfold itemOf at h
  split at h
  · cases h
  · split at h
    · cases h
    · split at h
      · cases h
      · cases hi with
        | success h1 => exact absurd (oneOf_single.1 h1) ‹_›
        | failure h1 => exact absurd (oneOf_single.1 h1) ‹_›
        | delay h1 => exact absurd (oneOf_single.1 h1) ‹_›

theorem itemsOf_filterMap : ∀ ps : List (List UInt8), ItemsOf ps (ps.filterMap itemOf) := by
  intro ps
  induction ps with
  | nil => exact .nil
  | cons p ps ih =>
    cases h : itemOf p with
    | none => rw [List.filterMap_cons_none h]; exact .other (no_itemName h) ih
    | some i => rw [List.filterMap_cons_some h]; exact .item (itemName_of h) ih

theorem readDsn_eq (s : List UInt8) : readDsn s =
    if lower s = bytes "never" then some .never
    else if ((splitComma s).filterMap itemOf).isEmpty then none else some (.items ((splitComma s).filterMap itemOf)) := rfl

theorem itemOf_ne {i : List UInt8} (h : OneOf ["success", "failure", "delay"] (trim i)) : itemOf i ≠ none := by
  obtain ⟨w, hw, h⟩ := h
  simp only [List.mem_cons, List.not_mem_nil, or_false] at hw
  intro hn
  rcases hw with rfl | rfl | rfl
  · exact no_itemName hn .success (.success (oneOf_single.2 h))
  · exact no_itemName hn .failure (.failure (oneOf_single.2 h))
  · exact no_itemName hn .delay (.delay (oneOf_single.2 h))

theorem readDsn_spec {s : List UInt8} (h : NotifyText s) :
    ∃ d, readDsn s = some d ∧ DsnMeans (F := F) .Notify (.text s) d := by
  rw [readDsn_eq]
  by_cases hn : lower s = bytes "never"
  · exact ⟨.never, by rw [if_pos hn], .never (oneOf_single.2 hn)⟩
  · rw [if_neg hn]
    rcases h with h | ⟨a, i, b, hs, ha, hb, hi, ho⟩
    · exact absurd (oneOf_single.1 h) hn
    · have hm : i ∈ splitComma s := (mem_splitComma s i).2 ⟨a, b, hs, ha, hb, hi⟩
      have hne : (splitComma s).filterMap itemOf ≠ [] := by
        intro h0
        exact itemOf_ne ho (List.filterMap_eq_nil_iff.1 h0 i hm)
      refine ⟨.items ((splitComma s).filterMap itemOf), ?_, .items (splitComma_pieces s) (itemsOf_filterMap _) hne⟩
      rw [if_neg]
      simpa using hne

theorem readMode_spec {s : List UInt8} (h : OneOf ["notify", "return"] s) :
    ∃ m, readMode s = some m ∧ ModeMeans (F := F) .ByMode (.text s) m := by
  unfold readMode
  by_cases h1 : lower s = bytes "notify"
  · exact ⟨.notify, by rw [if_pos h1], .notify (oneOf_single.2 h1)⟩
  · obtain ⟨w, hw, h⟩ := h
    simp only [List.mem_cons, List.not_mem_nil, or_false] at hw
    rcases hw with rfl | rfl
    · exact absurd h h1
    · exact ⟨.ret, by rw [if_neg h1, if_pos h], .ret (oneOf_single.2 h)⟩

theorem readRet_spec {s : List UInt8} (h : OneOf ["full", "hdrs"] s) :
    ∃ m, readRet s = some m ∧ RetMeans (F := F) .Ret (.text s) m := by
  unfold readRet
  by_cases h1 : lower s = bytes "full"
  · exact ⟨.full, by rw [if_pos h1], .full (oneOf_single.2 h1)⟩
  · obtain ⟨w, hw, h⟩ := h
    simp only [List.mem_cons, List.not_mem_nil, or_false] at hw
    rcases hw with rfl | rfl
    · exact absurd h h1
    · exact ⟨.hdrs, by rw [if_neg h1, if_pos h], .hdrs (oneOf_single.2 h)⟩

/-! ## Actions -/

/-- A round with another tag leaves the variable alone. -/
macro "other_tag" : tactic => `(tactic| (
  intro v p h
  unfold Vars.set
  split <;> first | rfl | (rename_i h1 _; rw [h1] at h; exact absurd (by decide) h) |
    (rename_i h1; rw [h1] at h; exact absurd (by decide) h)))

theorem copy_other : ∀ (v : Vars F) p, p.1 ∉ [Word.Copy] → (v.set p).copy = v.copy := by other_tag
theorem create_other : ∀ (v : Vars F) p, p.1 ∉ [Word.Create] → (v.set p).create = v.create := by other_tag
theorem list_other : ∀ (v : Vars F) p, p.1 ∉ [Word.List] → (v.set p).list = v.list := by other_tag
theorem mime_other : ∀ (v : Vars F) p, p.1 ∉ [Word.Mime] → (v.set p).mime = v.mime := by other_tag
theorem once_other : ∀ (v : Vars F) p, p.1 ∉ [Word.Once] → (v.set p).once = v.once := by other_tag
theorem optional_other : ∀ (v : Vars F) p, p.1 ∉ [Word.Optional] → (v.set p).optional = v.optional := by other_tag
theorem byTrace_other : ∀ (v : Vars F) p, p.1 ∉ [Word.ByTrace] → (v.set p).byTrace = v.byTrace := by other_tag
theorem last_other : ∀ (v : Vars F) p, p.1 ∉ [Word.Last] → (v.set p).last = v.last := by other_tag
theorem flags_other : ∀ (v : Vars F) p, p.1 ∉ [Word.Flags] → (v.set p).flags = v.flags := by other_tag
theorem addresses_other : ∀ (v : Vars F) p, p.1 ∉ [Word.Addresses] → (v.set p).addresses = v.addresses := by other_tag
theorem options_other : ∀ (v : Vars F) p, p.1 ∉ [Word.Options] → (v.set p).options = v.options := by other_tag
theorem headers_other : ∀ (v : Vars F) p, p.1 ∉ [Word.Headers] → (v.set p).headers = v.headers := by other_tag
theorem mailboxId_other : ∀ (v : Vars F) p, p.1 ∉ [Word.MailboxId] → (v.set p).mailboxId = v.mailboxId := by other_tag
theorem specialUse_other : ∀ (v : Vars F) p, p.1 ∉ [Word.SpecialUse] → (v.set p).specialUse = v.specialUse := by other_tag
theorem fcc_other : ∀ (v : Vars F) p, p.1 ∉ [Word.Fcc] → (v.set p).fcc = v.fcc := by other_tag
theorem subject_other : ∀ (v : Vars F) p, p.1 ∉ [Word.Subject] → (v.set p).subject = v.subject := by other_tag
theorem sender_other : ∀ (v : Vars F) p, p.1 ∉ [Word.From] → (v.set p).sender = v.sender := by other_tag
theorem handle_other : ∀ (v : Vars F) p, p.1 ∉ [Word.Handle] → (v.set p).handle = v.handle := by other_tag
theorem message_other : ∀ (v : Vars F) p, p.1 ∉ [Word.Message] → (v.set p).message = v.message := by other_tag
theorem importance_other : ∀ (v : Vars F) p, p.1 ∉ [Word.Importance] → (v.set p).importance = v.importance := by other_tag
theorem dsn_other : ∀ (v : Vars F) p, p.1 ∉ [Word.Notify] → (v.set p).dsn = v.dsn := by other_tag
theorem ret_other : ∀ (v : Vars F) p, p.1 ∉ [Word.Ret] → (v.set p).ret = v.ret := by other_tag
theorem byMode_other : ∀ (v : Vars F) p, p.1 ∉ [Word.ByMode] → (v.set p).byMode = v.byMode := by other_tag
theorem rlimit_other : ∀ (v : Vars F) p, p.1 ∉ [Word.ByTimeRelative] → (v.set p).rlimit = v.rlimit := by other_tag
theorem alimit_other : ∀ (v : Vars F) p, p.1 ∉ [Word.ByTimeAbsolute] → (v.set p).alimit = v.alimit := by other_tag
theorem isGlobal_other : ∀ (v : Vars F) p, p.1 ∉ [Word.Personal, .Global] → (v.set p).isGlobal = v.isGlobal := by other_tag
theorem period_other : ∀ (v : Vars F) p, p.1 ∉ [Word.Days, .Seconds] → (v.set p).period = v.period := by other_tag

/-- The variables hold what the tags of an action say. -/
structure ActionVars (g : Got F) (v : Vars F) : Prop where
  copy : Stores g [.Copy] Flag false v.copy
  create : Stores g [.Create] Flag false v.create
  list : Stores g [.List] Flag false v.list
  mime : Stores g [.Mime] Flag false v.mime
  once : Stores g [.Once] Flag false v.once
  optional : Stores g [.Optional] Flag false v.optional
  byTrace : Stores g [.ByTrace] Flag false v.byTrace
  last : Stores g [.Last] Flag false v.last
  flags : Stores g [.Flags] Many [] v.flags
  addresses : Stores g [.Addresses] Many [] v.addresses
  options : Stores g [.Options] Many [] v.options
  headers : Stores g [.Headers] Many [] v.headers
  mailboxId : Stores g [.MailboxId] One none v.mailboxId
  specialUse : Stores g [.SpecialUse] One none v.specialUse
  fcc : Stores g [.Fcc] One none v.fcc
  subject : Stores g [.Subject] One none v.subject
  sender : Stores g [.From] One none v.sender
  handle : Stores g [.Handle] One none v.handle
  message : Stores g [.Message] One none v.message
  importance : Stores g [.Importance] One none v.importance
  alimit : Stores g [.ByTimeAbsolute] One none v.alimit
  isGlobal : Stores g [.Personal, .Global] PlaceMeans false v.isGlobal
  period : Stores g [.Days, .Seconds] PeriodMeans .default v.period
  dsn : Stores g [.Notify] DsnMeans .default v.dsn
  ret : Stores g [.Ret] RetMeans .default v.ret
  byMode : Stores g [.ByMode] ModeMeans .default v.byMode
  rlimit : Stores g [.ByTimeRelative] Number none v.rlimit

theorem action_vars (x : Ext F) (has : Cap → Bool) {w : Word} {e : Entry} (hc : commandEntry w = some e) {ts : List (Tok F)}
    {g : Got F} {r : List (Tok F)} (h : readEntry x has w e ts = some (g, r)) : ActionVars g (varsOf g) := by
  have he : HasEntry w e := .inl hc
  have ty := fun (v : Word) (b : Arg F) (hv : (v, b) ∈ g.tags) (ks : List Kind) (hk : (v, ks) ∈ actionKinds) =>
    typed he (command_kinds hc) h hv hk
  have flag : ∀ {v : Word} {b : Arg F}, (v, b) ∈ g.tags → (v, [Kind.flag]) ∈ actionKinds → b = .flag := by
    intro v b hv hk
    obtain ⟨k, hk, u, ha⟩ := ty v b hv _ hk
    rw [List.mem_singleton] at hk
    subst hk
    cases ha
    rfl
  have many : ∀ {v : Word} {b : Arg F}, (v, b) ∈ g.tags → (v, [Kind.strs]) ∈ actionKinds → ∃ vs, b = .vals vs := by
    intro v b hv hk
    obtain ⟨k, hk, u, ha⟩ := ty v b hv _ hk
    rw [List.mem_singleton] at hk
    subst hk
    cases ha
    exact ⟨_, rfl⟩
  have one : ∀ {v : Word} {b : Arg F}, (v, b) ∈ g.tags → (v, [Kind.str]) ∈ actionKinds → ∃ y, b = .val y := by
    intro v b hv hk
    obtain ⟨k, hk, u, ha⟩ := ty v b hv _ hk
    rw [List.mem_singleton] at hk
    subst hk
    cases ha
    exact ⟨_, rfl⟩
  have number : ∀ {v : Word} {b : Arg F}, (v, b) ∈ g.tags → (v, [Kind.number big]) ∈ actionKinds → ∃ n, b = .num n := by
    intro v b hv hk
    obtain ⟨k, hk, u, ha⟩ := ty v b hv _ hk
    rw [List.mem_singleton] at hk
    subst hk
    cases ha
    exact ⟨_, rfl⟩
  constructor
  · refine stores he h (f := Vars.copy) (a := {}) (by decide +kernel) copy_other ?_
    intro v b hv hm a
    rw [List.mem_singleton] at hm
    subst hm
    obtain rfl := flag hv (by decide +kernel)
    exact ⟨rfl, rfl⟩
  · refine stores he h (f := Vars.create) (a := {}) (by decide +kernel) create_other ?_
    intro v b hv hm a
    rw [List.mem_singleton] at hm
    subst hm
    obtain rfl := flag hv (by decide +kernel)
    exact ⟨rfl, rfl⟩
  · refine stores he h (f := Vars.list) (a := {}) (by decide +kernel) list_other ?_
    intro v b hv hm a
    rw [List.mem_singleton] at hm
    subst hm
    obtain rfl := flag hv (by decide +kernel)
    exact ⟨rfl, rfl⟩
  · refine stores he h (f := Vars.mime) (a := {}) (by decide +kernel) mime_other ?_
    intro v b hv hm a
    rw [List.mem_singleton] at hm
    subst hm
    obtain rfl := flag hv (by decide +kernel)
    exact ⟨rfl, rfl⟩
  · refine stores he h (f := Vars.once) (a := {}) (by decide +kernel) once_other ?_
    intro v b hv hm a
    rw [List.mem_singleton] at hm
    subst hm
    obtain rfl := flag hv (by decide +kernel)
    exact ⟨rfl, rfl⟩
  · refine stores he h (f := Vars.optional) (a := {}) (by decide +kernel) optional_other ?_
    intro v b hv hm a
    rw [List.mem_singleton] at hm
    subst hm
    obtain rfl := flag hv (by decide +kernel)
    exact ⟨rfl, rfl⟩
  · refine stores he h (f := Vars.byTrace) (a := {}) (by decide +kernel) byTrace_other ?_
    intro v b hv hm a
    rw [List.mem_singleton] at hm
    subst hm
    obtain rfl := flag hv (by decide +kernel)
    exact ⟨rfl, rfl⟩
  · refine stores he h (f := Vars.last) (a := {}) (by decide +kernel) last_other ?_
    intro v b hv hm a
    rw [List.mem_singleton] at hm
    subst hm
    obtain rfl := flag hv (by decide +kernel)
    exact ⟨rfl, rfl⟩
  · refine stores he h (f := Vars.flags) (a := {}) (by decide +kernel) flags_other ?_
    intro v b hv hm a
    rw [List.mem_singleton] at hm
    subst hm
    obtain ⟨vs, rfl⟩ := many hv (by decide +kernel)
    exact rfl
  · refine stores he h (f := Vars.addresses) (a := {}) (by decide +kernel) addresses_other ?_
    intro v b hv hm a
    rw [List.mem_singleton] at hm
    subst hm
    obtain ⟨vs, rfl⟩ := many hv (by decide +kernel)
    exact rfl
  · refine stores he h (f := Vars.options) (a := {}) (by decide +kernel) options_other ?_
    intro v b hv hm a
    rw [List.mem_singleton] at hm
    subst hm
    obtain ⟨vs, rfl⟩ := many hv (by decide +kernel)
    exact rfl
  · refine stores he h (f := Vars.headers) (a := {}) (by decide +kernel) headers_other ?_
    intro v b hv hm a
    rw [List.mem_singleton] at hm
    subst hm
    obtain ⟨vs, rfl⟩ := many hv (by decide +kernel)
    exact rfl
  · refine stores he h (f := Vars.mailboxId) (a := {}) (by decide +kernel) mailboxId_other ?_
    intro v b hv hm a
    rw [List.mem_singleton] at hm
    subst hm
    obtain ⟨y, rfl⟩ := one hv (by decide +kernel)
    exact ⟨_, rfl, rfl⟩
  · refine stores he h (f := Vars.specialUse) (a := {}) (by decide +kernel) specialUse_other ?_
    intro v b hv hm a
    rw [List.mem_singleton] at hm
    subst hm
    obtain ⟨y, rfl⟩ := one hv (by decide +kernel)
    exact ⟨_, rfl, rfl⟩
  · refine stores he h (f := Vars.fcc) (a := {}) (by decide +kernel) fcc_other ?_
    intro v b hv hm a
    rw [List.mem_singleton] at hm
    subst hm
    obtain ⟨y, rfl⟩ := one hv (by decide +kernel)
    exact ⟨_, rfl, rfl⟩
  · refine stores he h (f := Vars.subject) (a := {}) (by decide +kernel) subject_other ?_
    intro v b hv hm a
    rw [List.mem_singleton] at hm
    subst hm
    obtain ⟨y, rfl⟩ := one hv (by decide +kernel)
    exact ⟨_, rfl, rfl⟩
  · refine stores he h (f := Vars.sender) (a := {}) (by decide +kernel) sender_other ?_
    intro v b hv hm a
    rw [List.mem_singleton] at hm
    subst hm
    obtain ⟨k, hk, u, ha⟩ := ty _ b hv [.str, .sender] (by decide +kernel)
    simp only [List.mem_cons, List.not_mem_nil, or_false] at hk
    rcases hk with rfl | rfl <;> (cases ha; exact ⟨_, rfl, rfl⟩)
  · refine stores he h (f := Vars.handle) (a := {}) (by decide +kernel) handle_other ?_
    intro v b hv hm a
    rw [List.mem_singleton] at hm
    subst hm
    obtain ⟨y, rfl⟩ := one hv (by decide +kernel)
    exact ⟨_, rfl, rfl⟩
  · refine stores he h (f := Vars.message) (a := {}) (by decide +kernel) message_other ?_
    intro v b hv hm a
    rw [List.mem_singleton] at hm
    subst hm
    obtain ⟨y, rfl⟩ := one hv (by decide +kernel)
    exact ⟨_, rfl, rfl⟩
  · refine stores he h (f := Vars.importance) (a := {}) (by decide +kernel) importance_other ?_
    intro v b hv hm a
    rw [List.mem_singleton] at hm
    subst hm
    obtain ⟨y, rfl⟩ := one hv (by decide +kernel)
    exact ⟨_, rfl, rfl⟩
  · refine stores he h (f := Vars.alimit) (a := {}) (by decide +kernel) alimit_other ?_
    intro v b hv hm a
    rw [List.mem_singleton] at hm
    subst hm
    obtain ⟨y, rfl⟩ := one hv (by decide +kernel)
    exact ⟨_, rfl, rfl⟩
  · refine stores he h (f := Vars.isGlobal) (a := {}) (by decide +kernel) isGlobal_other ?_
    intro v b hv hm a
    simp only [List.mem_cons, List.not_mem_nil, or_false] at hm
    rcases hm with rfl | rfl
    · obtain rfl := flag hv (by decide +kernel)
      exact .personal
    · obtain rfl := flag hv (by decide +kernel)
      exact .global
  · refine stores he h (f := Vars.period) (a := {}) (by decide +kernel) period_other ?_
    intro v b hv hm a
    simp only [List.mem_cons, List.not_mem_nil, or_false] at hm
    rcases hm with rfl | rfl
    · obtain ⟨n, rfl⟩ := number hv (by decide +kernel)
      exact .days n
    · obtain ⟨n, rfl⟩ := number hv (by decide +kernel)
      exact .seconds n
  · refine stores he h (f := Vars.dsn) (a := {}) (by decide +kernel) dsn_other ?_
    intro v b hv hm a
    rw [List.mem_singleton] at hm
    subst hm
    obtain ⟨k, hk, u, ha⟩ := ty _ b hv [.notifyItems] (by decide +kernel)
    rw [List.mem_singleton] at hk
    subst hk
    cases ha with
    | notify hs ho =>
      obtain ⟨d, hd, hm⟩ := readDsn_spec (F := F) ho
      show DsnMeans _ _ ((readDsn _).getD _)
      rw [hd]
      exact hm
  · refine stores he h (f := Vars.ret) (a := {}) (by decide +kernel) ret_other ?_
    intro v b hv hm a
    rw [List.mem_singleton] at hm
    subst hm
    obtain ⟨k, hk, u, ha⟩ := ty _ b hv [.static ["full", "hdrs"]] (by decide +kernel)
    rw [List.mem_singleton] at hk
    subst hk
    cases ha with
    | choice hs ho =>
      obtain ⟨d, hd, hm⟩ := readRet_spec (F := F) ho
      show RetMeans _ _ ((readRet _).getD _)
      rw [hd]
      exact hm
  · refine stores he h (f := Vars.byMode) (a := {}) (by decide +kernel) byMode_other ?_
    intro v b hv hm a
    rw [List.mem_singleton] at hm
    subst hm
    obtain ⟨k, hk, u, ha⟩ := ty _ b hv [.static ["notify", "return"]] (by decide +kernel)
    rw [List.mem_singleton] at hk
    subst hk
    cases ha with
    | choice hs ho =>
      obtain ⟨d, hd, hm⟩ := readMode_spec (F := F) ho
      show ModeMeans _ _ ((readMode _).getD _)
      rw [hd]
      exact hm
  · refine stores he h (f := Vars.rlimit) (a := {}) (by decide +kernel) rlimit_other ?_
    intro v b hv hm a
    rw [List.mem_singleton] at hm
    subst hm
    obtain ⟨n, rfl⟩ := number hv (by decide +kernel)
    exact ⟨_, rfl, rfl⟩

/-! ## Tests -/

/-- A round with another tag leaves the variable alone. -/
macro "other_test_tag" : tactic => `(tactic| (
  intro v p h
  unfold TestVars.set
  split <;> first | rfl | (rename_i h1 _; rw [h1] at h; exact absurd (by decide) h) |
    (rename_i h1; rw [h1] at h; exact absurd (by decide) h)))

theorem test_comparator_other : ∀ (v : TestVars F) p, p.1 ∉ [Word.Comparator] → (v.set p).comparator = v.comparator := by
  other_test_tag
theorem test_last_other : ∀ (v : TestVars F) p, p.1 ∉ [Word.Last] → (v.set p).last = v.last := by
  other_test_tag
theorem test_mime_other : ∀ (v : TestVars F) p, p.1 ∉ [Word.Mime] → (v.set p).mime = v.mime := by
  other_test_tag
theorem test_anyChild_other : ∀ (v : TestVars F) p, p.1 ∉ [Word.AnyChild] → (v.set p).anyChild = v.anyChild := by
  other_test_tag
theorem test_subject_other : ∀ (v : TestVars F) p, p.1 ∉ [Word.Subject] → (v.set p).subject = v.subject := by
  other_test_tag
theorem test_percent_other : ∀ (v : TestVars F) p, p.1 ∉ [Word.Percent] → (v.set p).percent = v.percent := by
  other_test_tag
theorem test_handle_other : ∀ (v : TestVars F) p, p.1 ∉ [Word.Handle] → (v.set p).handle = v.handle := by
  other_test_tag
theorem test_seconds_other : ∀ (v : TestVars F) p, p.1 ∉ [Word.Seconds] → (v.set p).seconds = v.seconds := by
  other_test_tag
theorem test_matchType_other : ∀ (v : TestVars F) p, p.1 ∉ [Word.Is, .Contains, .Matches, .Value, .Count, .Regex, .List] → (v.set p).matchType = v.matchType := by
  other_test_tag
theorem test_part_other : ∀ (v : TestVars F) p, p.1 ∉ [Word.LocalPart, .Domain, .All, .User, .Detail, .Name] → (v.set p).part = v.part := by
  other_test_tag
theorem test_mimeOpts_other : ∀ (v : TestVars F) p, p.1 ∉ [Word.Type, .Subtype, .ContentType, .Param] → (v.set p).mimeOpts = v.mimeOpts := by
  other_test_tag
theorem test_body_other : ∀ (v : TestVars F) p, p.1 ∉ [Word.Raw, .Text, .Content] → (v.set p).body = v.body := by
  other_test_tag
theorem test_zone_other : ∀ (v : TestVars F) p, p.1 ∉ [Word.OriginalZone, .Zone] → (v.set p).zone = v.zone := by
  other_test_tag
theorem test_dup_other : ∀ (v : TestVars F) p, p.1 ∉ [Word.Header, .UniqueId] → (v.set p).dup = v.dup := by
  other_test_tag
theorem test_index_other : ∀ (v : TestVars F) p, p.1 ∉ [Word.Index] → (v.set p).index = v.index := by
  other_test_tag

/-- The variables hold what the tags of a test say. -/
structure TestStores (g : Got F) (v : TestVars F) : Prop where
  comparator : Stores g [.Comparator] ComparatorMeans .asciiCaseMap v.comparator
  last : Stores g [.Last] Flag false v.last
  mime : Stores g [.Mime] Flag false v.mime
  anyChild : Stores g [.AnyChild] Flag false v.anyChild
  subject : Stores g [.Subject] Flag false v.subject
  percent : Stores g [.Percent] Flag false v.percent
  handle : Stores g [.Handle] One none v.handle
  seconds : Stores g [.Seconds] Number none v.seconds
  matchType : Stores g [.Is, .Contains, .Matches, .Value, .Count, .Regex, .List] MatchMeans .is v.matchType
  part : Stores g [.LocalPart, .Domain, .All, .User, .Detail, .Name] PartMeans .all v.part
  mimeOpts : Stores g [.Type, .Subtype, .ContentType, .Param] MimeMeans .none v.mimeOpts
  body : Stores g [.Raw, .Text, .Content] BodyMeans .text v.body
  zone : Stores g [.OriginalZone, .Zone] ZoneMeans .server v.zone
  dup : Stores g [.Header, .UniqueId] DupMeans .messageId v.dup
  index : Stores g [.Index] (fun _ a b => ∃ n : Nat, a = .num n ∧ b = some (n : Int)) none v.index

theorem test_vars (x : Ext F) (has : Cap → Bool) {w : Word} {e : Entry} (hc : TestLike w e) {ts : List (Tok F)}
    {g : Got F} {r : List (Tok F)} (h : readEntry x has w e ts = some (g, r)) : TestStores g (testVarsOf g) := by
  have he : HasEntry w e := hc.has
  have ty := fun (v : Word) (b : Arg F) (hv : (v, b) ∈ g.tags) (k : Kind) (hk : (v, [k]) ∈ testKinds) => by
    have := typed he hc.kinds h hv hk
    simpa only [List.mem_singleton, exists_eq_left] using this
  have flag : ∀ {v : Word} {b : Arg F}, (v, b) ∈ g.tags → (v, [Kind.flag]) ∈ testKinds → b = .flag := by
    intro v b hv hk
    obtain ⟨u, ha⟩ := ty v b hv _ hk
    cases ha
    rfl
  have many : ∀ {v : Word} {b : Arg F}, (v, b) ∈ g.tags → (v, [Kind.strs]) ∈ testKinds → ∃ vs, b = .vals vs := by
    intro v b hv hk
    obtain ⟨u, ha⟩ := ty v b hv _ hk
    cases ha
    exact ⟨_, rfl⟩
  have one : ∀ {v : Word} {b : Arg F}, (v, b) ∈ g.tags → (v, [Kind.str]) ∈ testKinds → ∃ y, b = .val y := by
    intro v b hv hk
    obtain ⟨u, ha⟩ := ty v b hv _ hk
    cases ha
    exact ⟨_, rfl⟩
  have number : ∀ {v : Word} {b : Arg F} (m : Nat), (v, b) ∈ g.tags → (v, [Kind.number m]) ∈ testKinds → ∃ n, b = .num n := by
    intro v b m hv hk
    obtain ⟨u, ha⟩ := ty v b hv _ hk
    cases ha
    exact ⟨_, rfl⟩
  have rel : ∀ {v : Word} {b : Arg F}, (v, b) ∈ g.tags → (v, [Kind.rel]) ∈ testKinds →
      ∃ n r, (n, r) ∈ relNames ∧ b = .text (bytes n) ∧ lookupRel (bytes n) = some r := by
    intro v b hv hk
    obtain ⟨u, ha⟩ := ty v b hv _ hk
    cases ha with
    | rel hs hn =>
      obtain ⟨n, r, h1, rfl, h2⟩ := lookupRel_spec hn
      exact ⟨n, r, h1, rfl, h2⟩
  constructor
  · refine stores he h (f := TestVars.comparator) (a := {}) (by decide +kernel) test_comparator_other ?_
    intro v b hv hm a
    rw [List.mem_singleton] at hm
    subst hm
    obtain ⟨u, ha⟩ := ty _ b hv (.static []) (by decide +kernel)
    cases ha <;> exact lookupComparator_spec _
  · refine stores he h (f := TestVars.last) (a := {}) (by decide +kernel) test_last_other ?_
    intro v b hv hm a
    rw [List.mem_singleton] at hm
    subst hm
    obtain rfl := flag hv (by decide +kernel)
    exact ⟨rfl, rfl⟩
  · refine stores he h (f := TestVars.mime) (a := {}) (by decide +kernel) test_mime_other ?_
    intro v b hv hm a
    rw [List.mem_singleton] at hm
    subst hm
    obtain rfl := flag hv (by decide +kernel)
    exact ⟨rfl, rfl⟩
  · refine stores he h (f := TestVars.anyChild) (a := {}) (by decide +kernel) test_anyChild_other ?_
    intro v b hv hm a
    rw [List.mem_singleton] at hm
    subst hm
    obtain rfl := flag hv (by decide +kernel)
    exact ⟨rfl, rfl⟩
  · refine stores he h (f := TestVars.subject) (a := {}) (by decide +kernel) test_subject_other ?_
    intro v b hv hm a
    rw [List.mem_singleton] at hm
    subst hm
    obtain rfl := flag hv (by decide +kernel)
    exact ⟨rfl, rfl⟩
  · refine stores he h (f := TestVars.percent) (a := {}) (by decide +kernel) test_percent_other ?_
    intro v b hv hm a
    rw [List.mem_singleton] at hm
    subst hm
    obtain rfl := flag hv (by decide +kernel)
    exact ⟨rfl, rfl⟩
  · refine stores he h (f := TestVars.handle) (a := {}) (by decide +kernel) test_handle_other ?_
    intro v b hv hm a
    rw [List.mem_singleton] at hm
    subst hm
    obtain ⟨y, rfl⟩ := one hv (by decide +kernel)
    exact ⟨_, rfl, rfl⟩
  · refine stores he h (f := TestVars.seconds) (a := {}) (by decide +kernel) test_seconds_other ?_
    intro v b hv hm a
    rw [List.mem_singleton] at hm
    subst hm
    obtain ⟨n, rfl⟩ := number big hv (by decide +kernel)
    exact ⟨_, rfl, rfl⟩
  · refine stores he h (f := TestVars.matchType) (a := {}) (by decide +kernel) test_matchType_other ?_
    intro v b hv hm a
    simp only [List.mem_cons, List.not_mem_nil, or_false] at hm
    rcases hm with rfl | rfl | rfl | rfl | rfl | rfl | rfl
    · obtain rfl := flag hv (by decide +kernel)
      exact .is
    · obtain rfl := flag hv (by decide +kernel)
      exact .contains
    · obtain rfl := flag hv (by decide +kernel)
      exact .glob
    · obtain ⟨n, r, h1, rfl, h2⟩ := rel hv (by decide +kernel)
      show MatchMeans _ _ (((lookupRel (bytes n)).map MatchType.value).getD _)
      rw [h2]
      exact .value h1
    · obtain ⟨n, r, h1, rfl, h2⟩ := rel hv (by decide +kernel)
      show MatchMeans _ _ (((lookupRel (bytes n)).map MatchType.count).getD _)
      rw [h2]
      exact .count h1
    · obtain rfl := flag hv (by decide +kernel)
      exact .regex
    · obtain rfl := flag hv (by decide +kernel)
      exact .list
  · refine stores he h (f := TestVars.part) (a := {}) (by decide +kernel) test_part_other ?_
    intro v b hv hm a
    simp only [List.mem_cons, List.not_mem_nil, or_false] at hm
    rcases hm with rfl | rfl | rfl | rfl | rfl | rfl
    · obtain rfl := flag hv (by decide +kernel)
      exact .localPart
    · obtain rfl := flag hv (by decide +kernel)
      exact .domain
    · obtain rfl := flag hv (by decide +kernel)
      exact .all
    · obtain rfl := flag hv (by decide +kernel)
      exact .user
    · obtain rfl := flag hv (by decide +kernel)
      exact .detail
    · obtain rfl := flag hv (by decide +kernel)
      exact .name
  · refine stores he h (f := TestVars.mimeOpts) (a := {}) (by decide +kernel) test_mimeOpts_other ?_
    intro v b hv hm a
    simp only [List.mem_cons, List.not_mem_nil, or_false] at hm
    rcases hm with rfl | rfl | rfl | rfl
    · obtain rfl := flag hv (by decide +kernel)
      exact .type
    · obtain rfl := flag hv (by decide +kernel)
      exact .subtype
    · obtain rfl := flag hv (by decide +kernel)
      exact .contentType
    · obtain ⟨vs, rfl⟩ := many hv (by decide +kernel)
      exact .param vs
  · refine stores he h (f := TestVars.body) (a := {}) (by decide +kernel) test_body_other ?_
    intro v b hv hm a
    simp only [List.mem_cons, List.not_mem_nil, or_false] at hm
    rcases hm with rfl | rfl | rfl
    · obtain rfl := flag hv (by decide +kernel)
      exact .raw
    · obtain rfl := flag hv (by decide +kernel)
      exact .text
    · obtain ⟨vs, rfl⟩ := many hv (by decide +kernel)
      exact .content vs
  · refine stores he h (f := TestVars.zone) (a := {}) (by decide +kernel) test_zone_other ?_
    intro v b hv hm a
    simp only [List.mem_cons, List.not_mem_nil, or_false] at hm
    rcases hm with rfl | rfl
    · obtain rfl := flag hv (by decide +kernel)
      exact .original
    · obtain ⟨u, ha⟩ := ty _ b hv .zone (by decide +kernel)
      cases ha
      exact .zone _
  · refine stores he h (f := TestVars.dup) (a := {}) (by decide +kernel) test_dup_other ?_
    intro v b hv hm a
    simp only [List.mem_cons, List.not_mem_nil, or_false] at hm
    rcases hm with rfl | rfl
    · obtain ⟨u, ha⟩ := ty _ b hv .header (by decide +kernel)
      cases ha
      exact .header _
    · obtain ⟨y, rfl⟩ := one hv (by decide +kernel)
      exact .uniqueId y
  · refine stores he h (f := TestVars.index) (a := {}) (by decide +kernel) test_index_other ?_
    intro v b hv hm a
    rw [List.mem_singleton] at hm
    subst hm
    obtain ⟨n, rfl⟩ := number 65535 hv (by decide +kernel)
    exact ⟨_, rfl, rfl⟩

end Sieve.Fields
