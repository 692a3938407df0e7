import Verif.FieldsVars

/-!
# C110: the instructions of commands and tests hold what their arguments say

For every command and test that is accepted (`readEntry`, C77) the instruction that is made of it.
-/

namespace Sieve.Fields

open Sieve.Args

variable {F : Type}

/-! ## Positional arguments -/

theorem pos_val {x : Ext F} {has : Cap → Bool} {w : Word} {e : Entry} {ts : List (Tok F)} {g : Got F} {r : List (Tok F)}
    (he : HasEntry w e) (h : readEntry x has w e ts = some (g, r)) {rows : Rows} {p : Pos}
    (hp : p ∈ [Pos.lit false, .lit true, .value, .uri, .str]) (hs : e.shape = .args rows [p] false) :
    ∃ v, g.pos = [.val v] := by
  obtain ⟨l, hl, hg⟩ := positions he h hs
  cases hl with
  | cons h1 h2 =>
    cases h2
    obtain ⟨u, h1⟩ := h1
    rcases hg with hg | ⟨hg, -⟩
    · rw [hg]
      simp only [List.mem_cons, List.not_mem_nil, or_false] at hp
      rcases hp with rfl | rfl | rfl | rfl | rfl <;> (cases h1; exact ⟨_, rfl⟩)
    · cases hg

theorem pos_vals_vals {x : Ext F} {has : Cap → Bool} {w : Word} {e : Entry} {ts : List (Tok F)} {g : Got F}
    {r : List (Tok F)} (he : HasEntry w e) (h : readEntry x has w e ts = some (g, r)) {rows : Rows} {b : Bool}
    (hs : e.shape = .args rows [.strs b, .keys] false) : ∃ vs ks, g.pos = [.vals vs, .vals ks] := by
  obtain ⟨l, hl, hg⟩ := positions he h hs
  rcases hl with _ | ⟨⟨u1, h1⟩, _ | ⟨⟨u2, h2⟩, _ | _⟩⟩
  rcases hg with hg | ⟨hg, -⟩
  · rw [hg]
    cases h2
    cases b <;> (cases h1; exact ⟨_, _, rfl⟩)
  · cases hg

/-! ## Actions -/

/-- C110: `fileinto`. -/
theorem fileinto_fields (x : Ext F) (has : Cap → Bool) {e : Entry} (he : commandEntry .FileInto = some e) {ts : List (Tok F)}
    {g : Got F} {r : List (Tok F)} (h : readEntry x has .FileInto e ts = some (g, r)) :
    ∃ i, FileInto.of g = some i ∧ g.pos = [.val i.folder] ∧ Stores g [.Copy] Flag false i.copy ∧
      Stores g [.Create] Flag false i.create ∧ Stores g [.Flags] Many [] i.flags ∧
      Stores g [.MailboxId] One none i.mailboxId ∧ Stores g [.SpecialUse] One none i.specialUse := by
  have hv := action_vars x has he h
  have he' := he
  injection he' with he'
  subst he'
  obtain ⟨v, hp⟩ := pos_val (.inl he) h (by simp) rfl
  exact ⟨_, by unfold FileInto.of; rw [hp], hp, hv.copy, hv.create, hv.flags, hv.mailboxId, hv.specialUse⟩

/-- C110: `include`. -/
theorem include_fields (x : Ext F) (has : Cap → Bool) {e : Entry} (he : commandEntry .Include = some e) {ts : List (Tok F)}
    {g : Got F} {r : List (Tok F)} (h : readEntry x has .Include e ts = some (g, r)) :
    ∃ i, Include.of g = some i ∧ g.pos = [.val i.value] ∧ Stores g [.Personal, .Global] PlaceMeans false i.isGlobal ∧
      Stores g [.Once] Flag false i.once ∧ Stores g [.Optional] Flag false i.optional := by
  have hv := action_vars x has he h
  have he' := he
  injection he' with he'
  subst he'
  obtain ⟨v, hp⟩ := pos_val (.inl he) h (by simp) rfl
  exact ⟨_, by unfold Include.of; rw [hp], hp, hv.isGlobal, hv.once, hv.optional⟩

theorem absolute_relative (x : Ext F) (has : Cap → Bool) {w : Word} {e : Entry} (he : HasEntry w e) {ts : List (Tok F)}
    {g : Got F} {r : List (Tok F)} (h : readEntry x has w e ts = some (g, r)) :
    ¬ (Uses g .ByTimeAbsolute ∧ Uses g .ByTimeRelative) := by
  rintro ⟨⟨a, ha⟩, b, hb⟩
  have hp := exclusive_partial x has he h
  have c1 : Clash .ByTimeAbsolute .ByTimeRelative := by decide +kernel
  have c2 : Clash .ByTimeRelative .ByTimeAbsolute := by decide +kernel
  have n1 : ¬ (Word.ByTimeAbsolute ∈ modifierTags ∨ Word.ByTimeRelative ∈ modifierTags) := by decide +kernel
  have n2 : ¬ (Word.ByTimeRelative ∈ modifierTags ∨ Word.ByTimeAbsolute ∈ modifierTags) := by decide +kernel
  have key : ∀ {l : List (Word × Arg F)}, (l.Pairwise fun p q => Clash p.1 q.1 → p.1 ∈ modifierTags ∨ q.1 ∈ modifierTags) →
      (Word.ByTimeAbsolute, a) ∈ l → (Word.ByTimeRelative, b) ∈ l → False := by
    intro l
    induction l with
    | nil => intro _ h; cases h
    | cons p l ih =>
      intro hp h1 h2
      rw [List.pairwise_cons] at hp
      rcases List.mem_cons.1 h1 with rfl | h3
      · rcases List.mem_cons.1 h2 with h2 | h2
        · cases h2
        · exact absurd (hp.1 _ h2 c1) n1
      · rcases List.mem_cons.1 h2 with rfl | h4
        · exact absurd (hp.1 _ h3 c2) n2
        · exact ih hp.2 h3 h4
  exact key hp ha hb

/-- C110: `redirect`.
The full claim would say that no argument is without effect; `:bymode` without a time is (`bymode_without_time`). -/
theorem redirect_fields_partial (x : Ext F) (has : Cap → Bool) {e : Entry} (he : commandEntry .Redirect = some e) {ts : List (Tok F)}
    {g : Got F} {r : List (Tok F)} (h : readEntry x has .Redirect e ts = some (g, r)) :
    ∃ i, Redirect.of g = some i ∧ g.pos = [.val i.address] ∧ Stores g [.Copy] Flag false i.copy ∧
      Stores g [.List] Flag false i.list ∧ Stores g [.Notify] DsnMeans .default i.dsn ∧
      Stores g [.Ret] RetMeans .default i.ret ∧ TimeIs g i.byTime := by
  have hv := action_vars x has he h
  have hx := absolute_relative x has (.inl he) h
  have he' := he
  injection he' with he'
  subst he'
  obtain ⟨v, hp⟩ := pos_val (.inl he) h (by simp) rfl
  refine ⟨_, by unfold Redirect.of; rw [hp], hp, hv.copy, hv.list, hv.dsn, hv.ret, ?_⟩
  constructor
  · intro a ha
    obtain ⟨y, rfl, hy⟩ := hv.alimit.given _ a ha List.mem_cons_self
    refine ⟨y, _, _, rfl, ?_, hv.byMode, hv.byTrace⟩
    simp only [hy]
  · intro a ha
    obtain ⟨n, rfl, hn⟩ := hv.rlimit.given _ a ha List.mem_cons_self
    have hno : (varsOf g).alimit = none := hv.alimit.default (by
      intro w hw
      rw [List.mem_singleton] at hw
      subst hw
      exact fun hu => hx ⟨hu, _, ha⟩)
    refine ⟨n, _, _, rfl, ?_, hv.byMode, hv.byTrace⟩
    simp only [hno, hn]
  · intro h1 h2
    have hno : (varsOf g).alimit = none := hv.alimit.default (by simpa using h1)
    have hno' : (varsOf g).rlimit = none := hv.rlimit.default (by simpa using h2)
    simp only [hno, hno']

theorem fcc_of {g : Got F} (hv : ActionVars g (varsOf g)) : FccIs g (varsOf g).carbonCopy where
  given := by
    intro a ha
    obtain ⟨y, rfl, hy⟩ := hv.fcc.given _ a ha List.mem_cons_self
    refine ⟨_, by unfold Vars.carbonCopy; rw [hy]; rfl, rfl, hv.create, hv.flags, hv.specialUse, hv.mailboxId⟩
  default := by
    intro hn
    have hno : (varsOf g).fcc = none := hv.fcc.default (by simpa using hn)
    unfold Vars.carbonCopy
    rw [hno]
    rfl

/-- C110: `vacation`: of the test and of the action that it is made of. -/
theorem vacation_fields (x : Ext F) (has : Cap → Bool) {e : Entry} (he : commandEntry .Vacation = some e) {ts : List (Tok F)}
    {g : Got F} {r : List (Tok F)} (h : readEntry x has .Vacation e ts = some (g, r)) :
    ∃ i, Vacation.of g = some i ∧ g.pos = [.val i.reason] ∧ g.pos = [.val i.testReason] ∧
      Stores g [.Days, .Seconds] PeriodMeans .default i.period ∧ Stores g [.Handle] One none i.handle ∧
      Stores g [.Addresses] Many [] i.addresses ∧ Stores g [.Subject] One none i.subject ∧
      Stores g [.From] One none i.sender ∧ Stores g [.Mime] Flag false i.mime ∧ FccIs g i.fcc := by
  have hv := action_vars x has he h
  have he' := he
  injection he' with he'
  subst he'
  obtain ⟨v, hp⟩ := pos_val (.inl he) h (by simp) rfl
  exact ⟨_, by unfold Vacation.of; rw [hp], hp, hp, hv.period, hv.handle, hv.addresses, hv.subject, hv.sender, hv.mime,
    fcc_of hv⟩

/-- C110: `notify`.
The full claim would say that no argument is without effect; some items of the options are (`notify_other_items`). -/
theorem notify_fields_partial (x : Ext F) (has : Cap → Bool) {e : Entry} (he : commandEntry .Notify = some e) {ts : List (Tok F)}
    {g : Got F} {r : List (Tok F)} (h : readEntry x has .Notify e ts = some (g, r)) :
    ∃ i, Notify.of g = some i ∧ g.pos = [.val i.method] ∧ Stores g [.From] One none i.sender ∧
      Stores g [.Importance] One none i.importance ∧ Stores g [.Options] Many [] i.options ∧
      Stores g [.Message] One none i.message ∧ FccIs g i.fcc := by
  have hv := action_vars x has he h
  have he' := he
  injection he' with he'
  subst he'
  obtain ⟨v, hp⟩ := pos_val (.inl he) h (by simp) rfl
  exact ⟨_, by unfold Notify.of; rw [hp], hp, hv.sender, hv.importance, hv.options, hv.message, fcc_of hv⟩

/-- C110: `replace`. -/
theorem replace_fields (x : Ext F) (has : Cap → Bool) {e : Entry} (he : commandEntry .Replace = some e) {ts : List (Tok F)}
    {g : Got F} {r : List (Tok F)} (h : readEntry x has .Replace e ts = some (g, r)) :
    ∃ i, Replace.of g = some i ∧ g.pos = [.val i.replacement] ∧ Stores g [.Subject] One none i.subject ∧
      Stores g [.From] One none i.sender ∧ Stores g [.Mime] Flag false i.mime := by
  have hv := action_vars x has he h
  have he' := he
  injection he' with he'
  subst he'
  obtain ⟨v, hp⟩ := pos_val (.inl he) h (by simp) rfl
  exact ⟨_, by unfold Replace.of; rw [hp], hp, hv.subject, hv.sender, hv.mime⟩

/-- C110: `enclose`. -/
theorem enclose_fields (x : Ext F) (has : Cap → Bool) {e : Entry} (he : commandEntry .Enclose = some e) {ts : List (Tok F)}
    {g : Got F} {r : List (Tok F)} (h : readEntry x has .Enclose e ts = some (g, r)) :
    ∃ i, Enclose.of g = some i ∧ g.pos = [.val i.value] ∧ Stores g [.Subject] One none i.subject ∧
      Stores g [.Headers] Many [] i.headers := by
  have hv := action_vars x has he h
  have he' := he
  injection he' with he'
  subst he'
  obtain ⟨v, hp⟩ := pos_val (.inl he) h (by simp) rfl
  exact ⟨_, by unfold Enclose.of; rw [hp], hp, hv.subject, hv.headers⟩

/-- C110: `addheader`. -/
theorem addheader_fields (x : Ext F) (has : Cap → Bool) {e : Entry} (he : commandEntry .AddHeader = some e) {ts : List (Tok F)}
    {g : Got F} {r : List (Tok F)} (h : readEntry x has .AddHeader e ts = some (g, r)) :
    ∃ i, AddHeader.of g = some i ∧ g.pos = [.val i.name, .val i.value] ∧ Stores g [.Last] Flag false i.last := by
  have hv := action_vars x has he h
  have he' := he
  injection he' with he'
  subst he'
  obtain ⟨l, hl, hg⟩ := positions (.inl he) h rfl
  rcases hl with _ | ⟨⟨u1, h1⟩, _ | ⟨⟨u2, h2⟩, _ | _⟩⟩
  rcases hg with hp | ⟨hg, -⟩
  · cases h1
    cases h2
    exact ⟨_, by unfold AddHeader.of; rw [hp], hp, hv.last⟩
  · cases hg

/-! ## Tests -/

theorem index_of {g : Got F} (hv : TestStores g (testVarsOf g)) : IndexIs g (testVarsOf g).signed where
  given := by
    intro a ha
    obtain ⟨n, rfl, hn⟩ := hv.index.given _ a ha List.mem_cons_self
    refine ⟨n, rfl, ?_, ?_⟩
    · rintro ⟨b, hb⟩
      have hl := (hv.last.given _ b hb List.mem_cons_self).2
      unfold TestVars.signed
      rw [hl, if_pos rfl, hn]
      rfl
    · intro hno
      have hl : (testVarsOf g).last = false := hv.last.default (by simpa using hno)
      unfold TestVars.signed
      rw [hl, if_neg (by decide), hn]
  default := by
    intro hno
    have hi : (testVarsOf g).index = none := hv.index.default (by simpa using hno)
    unfold TestVars.signed
    rw [hi]
    split <;> rfl

theorem compares_of {g : Got F} (hv : TestStores g (testVarsOf g)) :
    Compares g (testVarsOf g).matchType (testVarsOf g).comparator := ⟨hv.matchType, hv.comparator⟩

/-- Without `:originalzone` the offset is that of `:zone`. -/
theorem offset_of {g : Got F} (hv : TestStores g (testVarsOf g)) (ho : ¬ Uses g .OriginalZone) :
    Stores g [.Zone] OffsetMeans none (testVarsOf g).offset where
  given := by
    intro w a ha hw
    rw [List.mem_singleton] at hw
    subst hw
    have hz := hv.zone.given _ a ha (by decide)
    unfold TestVars.offset
    cases a with
    | zone z =>
      refine ⟨z, rfl, ?_⟩
      generalize (testVarsOf g).zone = y at hz ⊢
      cases hz
      rfl
    | _ => generalize (testVarsOf g).zone = y at hz; cases hz
  default := by
    intro hn
    have hz : (testVarsOf g).zone = .server := hv.zone.default (by
      intro w hw
      simp only [List.mem_cons, List.not_mem_nil, or_false] at hw
      rcases hw with rfl | rfl
      · exact ho
      · exact hn _ List.mem_cons_self)
    unfold TestVars.offset
    rw [hz]

theorem not_uses {x : Ext F} {has : Cap → Bool} {w : Word} {e : Entry} (he : HasEntry w e) {ts : List (Tok F)} {g : Got F}
    {r : List (Tok F)} (h : readEntry x has w e ts = some (g, r)) {t : Word} (ht : e.shape.rows.tag t = none) : ¬ Uses g t := by
  rintro ⟨a, ha⟩
  obtain ⟨-, u, -, hr⟩ := (arguments_iff x has he ts g r).1 h
  obtain ⟨q, v, hq, -⟩ := reads_typed hr ha
  rw [ht] at hq
  cases hq

/-- C110: `header`.
The full claim would say that no argument is without effect; `:last` without `:index` is (`last_without_index`), and that unknown comparators are rejected (`unknown_comparator`). -/
theorem header_fields_partial (x : Ext F) (has : Cap → Bool) {e : Entry} (he : testEntry .Header = some e) {ts : List (Tok F)}
    {g : Got F} {r : List (Tok F)} (h : readEntry x has .Header e ts = some (g, r)) :
    ∃ i, Header.of g = some i ∧ g.pos = [.vals i.headers, .vals i.keys] ∧ Compares g i.matchType i.comparator ∧
      IndexIs g i.index ∧ Stores g [.Type, .Subtype, .ContentType, .Param] MimeMeans .none i.mimeOpts ∧
      Stores g [.AnyChild] Flag false i.anyChild := by
  have hv := test_vars x has (.inl he) h
  have he' := he
  injection he' with he'
  subst he'
  obtain ⟨vs, ks, hp⟩ := pos_vals_vals (.inr he) h rfl
  exact ⟨_, by unfold Header.of; rw [hp], hp, compares_of hv, index_of hv, hv.mimeOpts, hv.anyChild⟩

/-- C110: `address`. -/
theorem address_fields (x : Ext F) (has : Cap → Bool) {e : Entry} (he : testEntry .Address = some e) {ts : List (Tok F)}
    {g : Got F} {r : List (Tok F)} (h : readEntry x has .Address e ts = some (g, r)) :
    ∃ i, Address.of g = some i ∧ g.pos = [.vals i.headers, .vals i.keys] ∧ Compares g i.matchType i.comparator ∧
      Stores g [.LocalPart, .Domain, .All, .User, .Detail, .Name] PartMeans .all i.part ∧ IndexIs g i.index ∧
      Stores g [.AnyChild] Flag false i.anyChild := by
  have hv := test_vars x has (.inl he) h
  have he' := he
  injection he' with he'
  subst he'
  obtain ⟨vs, ks, hp⟩ := pos_vals_vals (.inr he) h rfl
  exact ⟨_, by unfold Address.of; rw [hp], hp, compares_of hv, hv.part, index_of hv, hv.anyChild⟩

/-- Names in lower case, each once, in the order in which they are first written. -/
inductive FirstOnce : List (List UInt8) → List (List UInt8) → Prop where
  | nil : FirstOnce [] []
  | new {ss s l} : FirstOnce ss l → (∀ t ∈ ss, lower t ≠ lower s) → FirstOnce (ss ++ [s]) (l ++ [lower s])
  | seen {ss s l} : FirstOnce ss l → (∃ t ∈ ss, lower t = lower s) → FirstOnce (ss ++ [s]) l

theorem addName_spec : ∀ (ss pre l : List (List UInt8)), FirstOnce pre l → (∀ s, s ∈ l ↔ ∃ t ∈ pre, lower t = s) →
    FirstOnce (pre ++ ss) (ss.foldl addName l) := by
  intro ss
  induction ss with
  | nil => intro pre l h _; simpa using h
  | cons s ss ih =>
    intro pre l h hl
    rw [List.foldl_cons]
    have hsplit : pre ++ s :: ss = pre ++ [s] ++ ss := by simp
    rw [hsplit]
    unfold addName
    split
    · rename_i hm
      obtain ⟨t, ht, he⟩ := (hl _).1 hm
      refine ih _ _ (.seen h ⟨t, ht, he⟩) ?_
      intro y
      rw [hl]
      constructor
      · rintro ⟨t, ht, he⟩; exact ⟨t, List.mem_append_left _ ht, he⟩
      · rintro ⟨t', ht', he'⟩
        rcases List.mem_append.1 ht' with h1 | h1
        · exact ⟨t', h1, he'⟩
        · rw [List.mem_singleton] at h1; subst h1; exact ⟨t, ht, he.trans he'⟩
    · rename_i hm
      refine ih _ _ (.new h ?_) ?_
      · intro t ht he; exact hm ((hl _).2 ⟨t, ht, he⟩)
      · intro y
        rw [List.mem_append, hl, List.mem_singleton]
        constructor
        · rintro (⟨t, ht, he⟩ | rfl)
          · exact ⟨t, List.mem_append_left _ ht, he⟩
          · exact ⟨s, by simp, rfl⟩
        · rintro ⟨t, ht, he⟩
          rcases List.mem_append.1 ht with h1 | h1
          · exact .inl ⟨t, h1, he⟩
          · rw [List.mem_singleton] at h1; subst h1; exact .inr he.symm

/-- C110: `envelope`. -/
theorem envelope_fields (x : Ext F) (has : Cap → Bool) {e : Entry} (he : testEntry .Envelope = some e) {ts : List (Tok F)}
    {g : Got F} {r : List (Tok F)} (h : readEntry x has .Envelope e ts = some (g, r)) :
    ∃ i names, Envelope.of g = some i ∧ g.pos = [.texts names, .vals i.keys] ∧ FirstOnce names i.fields ∧
      Compares g i.matchType i.comparator ∧
      Stores g [.LocalPart, .Domain, .All, .User, .Detail, .Name] PartMeans .all i.part ∧
      Stores g [.Zone] OffsetMeans none i.zone := by
  have hv := test_vars x has (.inl he) h
  have he' := he
  injection he' with he'
  subst he'
  have hno := not_uses (t := .OriginalZone) (.inr he) h (by decide +kernel)
  obtain ⟨l, hl, hg⟩ := positions (.inr he) h rfl
  rcases hl with _ | ⟨⟨u1, h1⟩, _ | ⟨⟨u2, h2⟩, _ | _⟩⟩
  rcases hg with hp | ⟨hg, -⟩
  · cases h1
    cases h2
    exact ⟨_, _, by unfold Envelope.of; rw [hp], hp, addName_spec _ [] [] .nil (by simp), compares_of hv, hv.part,
      offset_of hv hno⟩
  · cases hg

/-- C110: `body`. -/
theorem body_fields (x : Ext F) (has : Cap → Bool) {e : Entry} (he : testEntry .Body = some e) {ts : List (Tok F)}
    {g : Got F} {r : List (Tok F)} (h : readEntry x has .Body e ts = some (g, r)) :
    ∃ i, Body.of g = some i ∧ g.pos = [.vals i.keys] ∧ Compares g i.matchType i.comparator ∧
      Stores g [.Raw, .Text, .Content] BodyMeans .text i.body ∧ Stores g [.Subject] Flag false i.subject := by
  have hv := test_vars x has (.inl he) h
  have he' := he
  injection he' with he'
  subst he'
  obtain ⟨l, hl, hg⟩ := positions (.inr he) h rfl
  rcases hl with _ | ⟨⟨u1, h1⟩, _ | _⟩
  rcases hg with hp | ⟨hg, -⟩
  · cases h1
    exact ⟨_, by unfold Body.of; rw [hp], hp, compares_of hv, hv.body, hv.subject⟩
  · cases hg

/-- C110: `date`. -/
theorem date_fields (x : Ext F) (has : Cap → Bool) {e : Entry} (he : testEntry .Date = some e) {ts : List (Tok F)}
    {g : Got F} {r : List (Tok F)} (h : readEntry x has .Date e ts = some (g, r)) :
    ∃ i part, Date.of g = some i ∧ g.pos = [.val i.header, .text part, .vals i.keys] ∧
      (∃ n ∈ dateParts, lower part = bytes n ∧ i.part = bytes n) ∧ Compares g i.matchType i.comparator ∧ IndexIs g i.index ∧
      Stores g [.OriginalZone, .Zone] ZoneMeans .server i.zone ∧ Stores g [.AnyChild] Flag false i.anyChild := by
  have hv := test_vars x has (.inl he) h
  have he' := he
  injection he' with he'
  subst he'
  obtain ⟨l, hl, hg⟩ := positions (.inr he) h rfl
  rcases hl with _ | ⟨⟨u1, h1⟩, _ | ⟨⟨u2, h2⟩, _ | ⟨⟨u3, h3⟩, _ | _⟩⟩⟩
  rcases hg with hp | ⟨hg, -⟩
  · cases h1
    cases h3
    cases h2 with
    | part hc ho =>
      obtain ⟨n, hn, hs⟩ := ho
      exact ⟨_, _, by unfold Date.of; rw [hp], hp, ⟨n, hn, hs, hs⟩, compares_of hv, index_of hv, hv.zone, hv.anyChild⟩
  · cases hg

/-- C110: `currentdate`. -/
theorem currentdate_fields (x : Ext F) (has : Cap → Bool) {e : Entry} (he : testEntry .CurrentDate = some e)
    {ts : List (Tok F)} {g : Got F} {r : List (Tok F)} (h : readEntry x has .CurrentDate e ts = some (g, r)) :
    ∃ i part, CurrentDate.of g = some i ∧ g.pos = [.text part, .vals i.keys] ∧
      (∃ n ∈ dateParts, lower part = bytes n ∧ i.part = bytes n) ∧ Compares g i.matchType i.comparator ∧
      Stores g [.Zone] OffsetMeans none i.zone := by
  have hv := test_vars x has (.inl he) h
  have he' := he
  injection he' with he'
  subst he'
  have hno := not_uses (t := .OriginalZone) (.inr he) h (by decide +kernel)
  obtain ⟨l, hl, hg⟩ := positions (.inr he) h rfl
  rcases hl with _ | ⟨⟨u1, h1⟩, _ | ⟨⟨u2, h2⟩, _ | _⟩⟩
  rcases hg with hp | ⟨hg, -⟩
  · cases h2
    cases h1 with
    | part hc ho =>
      obtain ⟨n, hn, hs⟩ := ho
      exact ⟨_, _, by unfold CurrentDate.of; rw [hp], hp, ⟨n, hn, hs, hs⟩, compares_of hv, offset_of hv hno⟩
  · cases hg

/-- C110: `exists`. -/
theorem exists_fields (x : Ext F) (has : Cap → Bool) {e : Entry} (he : testEntry .Exists = some e) {ts : List (Tok F)}
    {g : Got F} {r : List (Tok F)} (h : readEntry x has .Exists e ts = some (g, r)) :
    ∃ i, Exists.of g = some i ∧ g.pos = [.vals i.headers] ∧ Stores g [.AnyChild] Flag false i.anyChild := by
  have hv := test_vars x has (.inl he) h
  have he' := he
  injection he' with he'
  subst he'
  obtain ⟨l, hl, hg⟩ := positions (.inr he) h rfl
  rcases hl with _ | ⟨⟨u1, h1⟩, _ | _⟩
  rcases hg with hp | ⟨hg, -⟩
  · cases h1
    exact ⟨_, by unfold Exists.of; rw [hp], hp, hv.anyChild⟩
  · cases hg

/-- C110: `duplicate`. -/
theorem duplicate_fields (x : Ext F) (has : Cap → Bool) {e : Entry} (he : testEntry .Duplicate = some e) {ts : List (Tok F)}
    {g : Got F} {r : List (Tok F)} (h : readEntry x has .Duplicate e ts = some (g, r)) :
    Stores g [.Handle] One none (Duplicate.of g).handle ∧
      Stores g [.Header, .UniqueId] DupMeans .messageId (Duplicate.of g).dup ∧
      Stores g [.Seconds] Number none (Duplicate.of g).seconds ∧ Stores g [.Last] Flag false (Duplicate.of g).last := by
  have hv := test_vars x has (.inl he) h
  exact ⟨hv.handle, hv.dup, hv.seconds, hv.last⟩

/-- C110: `string`. -/
theorem string_fields (x : Ext F) (has : Cap → Bool) {e : Entry} (he : testEntry .String = some e) {ts : List (Tok F)}
    {g : Got F} {r : List (Tok F)} (h : readEntry x has .String e ts = some (g, r)) :
    ∃ i, StringTest.of g = some i ∧ g.pos = [.vals i.source, .vals i.keys] ∧ Compares g i.matchType i.comparator := by
  have hv := test_vars x has (.inl he) h
  have he' := he
  injection he' with he'
  subst he'
  obtain ⟨vs, ks, hp⟩ := pos_vals_vals (.inr he) h rfl
  exact ⟨_, by unfold StringTest.of; rw [hp], hp, compares_of hv⟩

/-- C110: `spamtest`, and `virustest`, which has no `:percent`. -/
theorem spamtest_fields (x : Ext F) (has : Cap → Bool) {w : Word} (hw : w = .SpamTest ∨ w = .VirusTest) {e : Entry}
    (he : testEntry w = some e) {ts : List (Tok F)} {g : Got F} {r : List (Tok F)} (h : readEntry x has w e ts = some (g, r)) :
    ∃ i, SpamTest.of g = some i ∧ g.pos = [.val i.value] ∧ Compares g i.matchType i.comparator ∧
      Stores g [.Percent] Flag false i.percent ∧ (w = .VirusTest → i.percent = false) := by
  have hv := test_vars x has (.inl he) h
  have he' := he
  rcases hw with rfl | rfl
  · injection he' with he'
    subst he'
    obtain ⟨v, hp⟩ := pos_val (.inr he) h (by simp) rfl
    exact ⟨_, by unfold SpamTest.of; rw [hp], hp, compares_of hv, hv.percent, by intro h; cases h⟩
  · injection he' with he'
    subst he'
    have hno := not_uses (t := .Percent) (.inr he) h (by decide +kernel)
    obtain ⟨v, hp⟩ := pos_val (.inr he) h (by simp) rfl
    exact ⟨_, by unfold SpamTest.of; rw [hp], hp, compares_of hv, hv.percent,
      fun _ => hv.percent.default (by simpa using hno)⟩

/-- C110: `metadata` and `notify_method_capability`. -/
theorem two_names_fields (x : Ext F) (has : Cap → Bool) {w : Word} (hw : w = .Metadata ∨ w = .NotifyMethodCapability)
    {e : Entry} (he : testEntry w = some e) {ts : List (Tok F)} {g : Got F} {r : List (Tok F)}
    (h : readEntry x has w e ts = some (g, r)) :
    ∃ i, TwoNames.of g = some i ∧ g.pos = [.val i.first, .val i.second, .vals i.keys] ∧
      Compares g i.matchType i.comparator := by
  have hv := test_vars x has (.inl he) h
  have hs : ∃ rows, e.shape = .args rows [.lit false, .lit false, .keys] false := by
    rcases hw with rfl | rfl <;> (have he' := he; injection he' with he'; subst he'; exact ⟨_, rfl⟩)
  obtain ⟨rows, hs⟩ := hs
  obtain ⟨l, hl, hg⟩ := positions (.inr he) h hs
  rcases hl with _ | ⟨⟨u1, h1⟩, _ | ⟨⟨u2, h2⟩, _ | ⟨⟨u3, h3⟩, _ | _⟩⟩⟩
  rcases hg with hp | ⟨hg, -⟩
  · cases h1
    cases h2
    cases h3
    exact ⟨_, by unfold TwoNames.of; rw [hp], hp, compares_of hv⟩
  · cases hg

/-- C110: `deleteheader`; without patterns the list is empty.
The full claim would say that no argument is without effect; `:last` without `:index` is (`last_without_index`). -/
theorem deleteheader_fields_partial (x : Ext F) (has : Cap → Bool) {e : Entry} (he : commandEntry .DeleteHeader = some e)
    {ts : List (Tok F)} {g : Got F} {r : List (Tok F)} (h : readEntry x has .DeleteHeader e ts = some (g, r)) :
    ∃ i, DeleteHeader.of g = some i ∧
      (g.pos = [.val i.name] ∧ i.patterns = [] ∨ g.pos = [.val i.name, .vals i.patterns]) ∧
      Compares g i.matchType i.comparator ∧ IndexIs g i.index ∧ Stores g [.AnyChild] Flag false i.anyChild := by
  have hv := test_vars x has (.inr ⟨rfl, he⟩) h
  have he' := he
  injection he' with he'
  subst he'
  obtain ⟨l, hl, hg⟩ := positions (.inl he) h rfl
  rcases hl with _ | ⟨⟨u1, h1⟩, _ | _⟩
  cases h1
  rcases hg with hp | ⟨-, vs, hp⟩
  · exact ⟨_, by unfold DeleteHeader.of; rw [hp], .inl ⟨hp, rfl⟩, compares_of hv, index_of hv, hv.anyChild⟩
  · rw [List.singleton_append] at hp
    exact ⟨_, by unfold DeleteHeader.of; rw [hp], .inr hp, compares_of hv, index_of hv, hv.anyChild⟩

/-- C110: `hasflag`. -/
theorem hasflag_fields (x : Ext F) (has : Cap → Bool) {e : Entry} (he : testEntry .HasFlag = some e) {ts : List (Tok F)}
    {g : Got F} {r : List (Tok F)} (h : readEntry x has .HasFlag e ts = some (g, r)) :
    ∃ i, HasFlag.of g = some i ∧
      (g.pos = [.vals i.flags] ∧ i.vars = [] ∨ g.pos = [.vals i.vars, .vals i.flags]) ∧
      Compares g i.matchType i.comparator := by
  have hv := test_vars x has (.inl he) h
  have he' := he
  injection he' with he'
  subst he'
  obtain ⟨l, hl, hg⟩ := positions (.inr he) h rfl
  rcases hl with _ | ⟨⟨u1, h1⟩, _ | _⟩
  cases h1
  rcases hg with hp | ⟨-, vs, hp⟩
  · exact ⟨_, by unfold HasFlag.of; rw [hp], .inl ⟨hp, rfl⟩, compares_of hv⟩
  · rw [List.singleton_append] at hp
    exact ⟨_, by unfold HasFlag.of; rw [hp], .inr hp, compares_of hv⟩

/-- C110: `servermetadata`. -/
theorem servermetadata_fields (x : Ext F) (has : Cap → Bool) {e : Entry} (he : testEntry .ServerMetadata = some e)
    {ts : List (Tok F)} {g : Got F} {r : List (Tok F)} (h : readEntry x has .ServerMetadata e ts = some (g, r)) :
    ∃ i, OneName.of g = some i ∧ g.pos = [.val i.name, .vals i.keys] ∧ Compares g i.matchType i.comparator := by
  have hv := test_vars x has (.inl he) h
  have he' := he
  injection he' with he'
  subst he'
  obtain ⟨l, hl, hg⟩ := positions (.inr he) h rfl
  rcases hl with _ | ⟨⟨u1, h1⟩, _ | ⟨⟨u2, h2⟩, _ | _⟩⟩
  rcases hg with hp | ⟨hg, -⟩
  · cases h1
    cases h2
    exact ⟨_, by unfold OneName.of; rw [hp], hp, compares_of hv⟩
  · cases hg

/-! ## Examples, and arguments that say nothing -/

/-- `redirect :copy :notify "SUCCESS, delay" :bytimerelative 60 :bymode "return" "a@b";` -/
def someRedirect : List (Tok Unit) :=
  [.tag .Copy, .tag .Notify, .string (bytes "SUCCESS, delay"), .tag .ByTimeRelative, .number 60, .tag .ByMode,
    .string (bytes "return"), .string (bytes "a@b"), .semicolon]

example : ∃ e g, commandEntry .Redirect = some e ∧ readEntry someExt (fun _ => true) .Redirect e someRedirect = some (g, [.semicolon]) ∧
    (Redirect.of g).map (fun i => (i.address, i.copy, i.list, i.dsn)) =
      some (.text (bytes "a@b"), true, false, .items [.success, .delay]) ∧
    (Redirect.of g).map (fun i => (i.ret, i.byTime)) = some (.default, .relative 60 .ret false) :=
  ⟨_, ⟨[(.Copy, .flag), (.Notify, .text (bytes "SUCCESS, delay")), (.ByTimeRelative, .num 60), (.ByMode, .text (bytes "return"))],
    [.val (.text (bytes "a@b"))]⟩, rfl, by decide +kernel, by decide +kernel, by decide +kernel⟩

/-- `header :index 2 :last :value "ge" :comparator "i;ascii-numeric" "x" ["1"]` -/
def someHeader : List (Tok Unit) :=
  [.tag .Index, .number 2, .tag .Last, .tag .Value, .string (bytes "ge"), .tag .Comparator, .string (bytes "i;ascii-numeric"),
    .string (bytes "x"), .bracketOpen, .string (bytes "1"), .bracketClose]

example : ∃ e g, testEntry .Header = some e ∧ readEntry someExt (fun _ => true) .Header e someHeader = some (g, []) ∧
    (Header.of g).map (fun i => (i.headers, i.keys, i.matchType, i.comparator, i.index)) =
      some ([.text (bytes "x")], [.text (bytes "1")], .value .ge, .asciiNumeric, some (-2)) :=
  ⟨_, ⟨[(.Index, .num 2), (.Last, .flag), (.Value, .text (bytes "ge")), (.Comparator, .text (bytes "i;ascii-numeric"))],
    [.vals [.text (bytes "x")], .vals [.text (bytes "1")]]⟩, rfl, by decide +kernel, by decide +kernel⟩

/-- C110 (negation, RFC 5260, 6: `:last` without `:index` is an error): it is accepted and makes no difference. -/
theorem last_without_index :
    ∃ (e : Entry) (ts : List (Tok Unit)) (g g' : Got Unit), testEntry .Header = some e ∧
      readEntry someExt (fun _ => true) .Header e (.tag .Last :: ts) = some (g, []) ∧ Uses g .Last ∧ ¬ Uses g .Index ∧
      readEntry someExt (fun _ => true) .Header e ts = some (g', []) ∧ ¬ Uses g' .Last ∧
      (Header.of g).isSome = true ∧ Header.of g = Header.of g' := by
  refine ⟨_, [.string (bytes "x"), .string (bytes "1")],
    ⟨[(.Last, .flag)], [.vals [.text (bytes "x")], .vals [.text (bytes "1")]]⟩,
    ⟨[], [.vals [.text (bytes "x")], .vals [.text (bytes "1")]]⟩, rfl, by decide +kernel, ⟨_, List.mem_cons_self⟩, ?_,
    by decide +kernel, ?_, rfl, rfl⟩
  · rintro ⟨a, ha⟩
    simp at ha
  · rintro ⟨a, ha⟩
    simp at ha

/-- C110 (negation, RFC 6009, 4.1: `:bymode` and `:bytrace` need a time): they are accepted without one, and dropped. -/
theorem bymode_without_time :
    ∃ (e : Entry) (ts : List (Tok Unit)) (g : Got Unit) (i : Redirect Unit), commandEntry .Redirect = some e ∧
      readEntry someExt (fun _ => true) .Redirect e ts = some (g, []) ∧ Uses g .ByMode ∧ Uses g .ByTrace ∧
      ¬ Uses g .ByTimeAbsolute ∧ ¬ Uses g .ByTimeRelative ∧ Redirect.of g = some i ∧ i.byTime = .none := by
  refine ⟨_, [.tag .ByMode, .string (bytes "return"), .tag .ByTrace, .string (bytes "a@b")],
    ⟨[(.ByMode, .text (bytes "return")), (.ByTrace, .flag)], [.val (.text (bytes "a@b"))]⟩, _, rfl, by decide +kernel,
    ⟨_, List.mem_cons_self⟩, ⟨.flag, List.mem_cons_of_mem _ List.mem_cons_self⟩, ?_, ?_, rfl, rfl⟩
  · rintro ⟨a, ha⟩
    simp at ha
  · rintro ⟨a, ha⟩
    simp at ha

/-- C110 (negation, RFC 6009, 3.1: the value is `NEVER` or a list of the three items): other items are passed over. -/
theorem notify_other_items :
    ∃ (e : Entry) (ts : List (Tok Unit)) (g : Got Unit) (i : Redirect Unit), commandEntry .Redirect = some e ∧
      readEntry someExt (fun _ => true) .Redirect e ts = some (g, []) ∧
      (.Notify, .text (bytes "never,sometimes,FAILURE")) ∈ g.tags ∧ Redirect.of g = some i ∧ i.dsn = .items [.failure] :=
  ⟨_, [.tag .Notify, .string (bytes "never,sometimes,FAILURE"), .string (bytes "a@b")],
    ⟨[(.Notify, .text (bytes "never,sometimes,FAILURE"))], [.val (.text (bytes "a@b"))]⟩, _, rfl, by decide +kernel,
    List.mem_cons_self, rfl, by decide +kernel⟩

/-- C110 (negation, RFC 5228, 2.7.3: the use of an unknown comparator is an error): any name is accepted. -/
theorem unknown_comparator :
    ∃ (e : Entry) (ts : List (Tok Unit)) (g : Got Unit) (i : StringTest Unit), testEntry .String = some e ∧
      readEntry someExt (fun _ => true) .String e ts = some (g, []) ∧ StringTest.of g = some i ∧
      i.comparator = .other (bytes "I;OCTET") :=
  ⟨_, [.tag .Comparator, .string (bytes "I;OCTET"), .string (bytes "a"), .string (bytes "b")],
    ⟨[(.Comparator, .text (bytes "I;OCTET"))], [.vals [.text (bytes "a")], .vals [.text (bytes "b")]]⟩, _, rfl,
    by decide +kernel, rfl, by decide +kernel⟩

example : FirstOnce [bytes "From", bytes "to", bytes "FROM"] [bytes "from", bytes "to"] := by
  have h1 : FirstOnce [bytes "From"] [bytes "from"] := .new .nil (by simp)
  have h2 : FirstOnce [bytes "From", bytes "to"] [bytes "from", bytes "to"] := .new h1 (by decide +kernel)
  exact .seen (ss := [bytes "From", bytes "to"]) h2 (by decide +kernel)

end Sieve.Fields
