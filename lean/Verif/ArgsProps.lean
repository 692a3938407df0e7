import Verif.ArgsEntry

/-!
# Arguments: the properties
-/

namespace Sieve.Args

variable {F : Type}

/-- The commands and tests that take arguments. -/
def HasEntry (w : Word) (e : Entry) : Prop := commandEntry w = some e ∨ testEntry w = some e

theorem entry_all {P : Word → Entry → Prop} {ok : Word → Entry → Bool} (hp : ∀ w e, ok w e = true → P w e)
    (h : ∀ w, (commandEntry w).all (ok w) = true ∧ (testEntry w).all (ok w) = true) {w : Word} {e : Entry}
    (he : HasEntry w e) : P w e := by
  rcases he with he | he
  · have := (h w).1
    rw [he] at this
    exact hp w e this
  · have := (h w).2
    rw [he] at this
    exact hp w e this

/-! ## C77: what is accepted -/

def slotsOkB : Shape → Bool
  | .args rows _ _ | .tags rows => rows.all fun p => p.2.slot ≤ maxParams
  | _ => true

/-- No group is outside of the array of `validate_argument`, where it would not be checked. -/
theorem slots_in_range {w : Word} {e : Entry} (h : HasEntry w e) : e.shape.SlotsOk := by
  refine entry_all (P := fun _ e => e.shape.SlotsOk) (ok := fun _ e => slotsOkB e.shape) ?_ ?_ h
  · intro _ e h
    cases hs : e.shape with
    | args rows ps tail => rw [hs] at h; simpa [slotsOkB, Shape.SlotsOk] using h
    | tags rows => rw [hs] at h; simpa [slotsOkB, Shape.SlotsOk] using h
    | _ => trivial
  · intro w; cases w <;> decide +kernel

/-- C77: the arguments of every command and of every test are accepted exactly if the extensions that its name needs are
declared and its tokens are arguments of its layout; what is read is what the tokens say. -/
theorem arguments_iff (x : Ext F) (has : Cap → Bool) {w : Word} {e : Entry} (he : HasEntry w e) (ts : List (Tok F)) (g : Got F)
    (r : List (Tok F)) : readEntry x has w e ts = some (g, r) ↔
      (∀ c ∈ e.caps, has c = true) ∧ ∃ u, ts = u ++ r ∧ Reads x has w e.shape u r g := by
  unfold readEntry
  rw [← readShape_iff x has w e.shape (slots_in_range he)]
  constructor
  · intro h
    split at h
    · rename_i hc
      exact ⟨by simpa using hc, h⟩
    · cases h
  · rintro ⟨hc, h⟩
    rw [if_pos (by simpa using hc), h]

/-- C77: the arguments cannot be understood in two ways. -/
theorem arguments_unique (x : Ext F) (has : Cap → Bool) {w : Word} {e : Entry} (he : HasEntry w e) {u u' r r' : List (Tok F)}
    {g g' : Got F} (hts : u ++ r = u' ++ r') (h : Reads x has w e.shape u r g) (h' : Reads x has w e.shape u' r' g') :
    u = u' ∧ g = g' := by
  have e1 := (readShape_iff x has w e.shape (slots_in_range he) (u ++ r) g r).2 ⟨u, rfl, h⟩
  have e2 := (readShape_iff x has w e.shape (slots_in_range he) (u ++ r) g' r').2 ⟨u', hts, h'⟩
  rw [e1] at e2
  simp only [Option.some.injEq, Prod.mk.injEq] at e2
  obtain ⟨rfl, rfl⟩ := e2
  exact ⟨List.append_cancel_right hts, rfl⟩

/-! ### An example -/

/-- Parameters for the examples: every text is all right but the empty one. -/
def someExt : Ext Unit where
  showNum := fun _ => bytes "1"
  varOk := fun s => s ≠ []
  headerOk := fun s => s ≠ []
  regexOk := fun s => s ≠ []
  fromOk := fun s => s ≠ []
  uriOk := fun s => s ≠ []
  nameOk := fun s => s ≠ []
  exprOk := fun s => s ≠ []
  parseInt := fun s => if s = bytes "-0330" then some (-330) else none
  toInt := fun _ => 0
  maxHeader := 100
  noCheck := false
  maxIncludes := 10

/-- `fileinto :flags ["a", "b"] :copy "Junk";` -/
def someToks : List (Tok Unit) :=
  [.tag .Flags, .bracketOpen, .string (bytes "a"), .comma, .string (bytes "b"), .bracketClose, .tag .Copy,
    .string (bytes "Junk"), .semicolon]

def someFileInto : Entry := ⟨[.FileInto], .args [
      (.Copy, ⟨1, some .Copy, .flag⟩), (.Create, ⟨2, some .Mailbox, .flag⟩), (.Flags, ⟨3, some .Imap4Flags, .strs⟩),
      (.MailboxId, ⟨4, some .Mailbox, .str⟩), (.SpecialUse, ⟨5, some .SpecialUse, .str⟩)] [.lit false] false⟩

example : HasEntry .FileInto someFileInto := .inl rfl

example : readEntry someExt (fun c => [Cap.FileInto, .Copy, .Imap4Flags].contains c) .FileInto someFileInto someToks =
      some (⟨[(.Flags, .vals [.text (bytes "a"), .text (bytes "b")]), (.Copy, .flag)], [.val (.text (bytes "Junk"))]⟩,
        [.semicolon]) ∧
    readEntry someExt (fun c => [Cap.FileInto, .Copy].contains c) .FileInto someFileInto someToks = none ∧
    readEntry someExt (fun _ => true) .FileInto someFileInto (.tag .Copy :: someToks) = none := by decide +kernel

/-! ## C78: tags of one group exclude each other, and tags need their extensions -/

/-- Tags of which a command takes only one, by the documents that define them. -/
def rfcGroups : List (List Word) := [
  -- RFC 5228, 2.7.1; RFC 5231; draft-ietf-sieve-regex; RFC 6134
  [.Is, .Contains, .Matches, .Value, .Count, .Regex, .List],
  -- RFC 5228, 2.7.4; RFC 5233; vendor extension
  [.LocalPart, .Domain, .All, .User, .Detail, .Name],
  -- RFC 6009
  [.ByTimeRelative, .ByTimeAbsolute],
  -- RFC 6131
  [.Days, .Seconds],
  -- RFC 6609
  [.Personal, .Global],
  -- RFC 5703
  [.Type, .Subtype, .ContentType, .Param],
  -- RFC 5173
  [.Raw, .Text, .Content],
  -- RFC 5260
  [.OriginalZone, .Zone],
  -- RFC 7352
  [.Header, .UniqueId]]

/-- Two tags that may not stand together: the same one, or two of one group. -/
def Clash (s t : Word) : Prop := s = t ∨ ∃ g ∈ rfcGroups, s ∈ g ∧ t ∈ g

instance (s t : Word) : Decidable (Clash s t) := by unfold Clash; infer_instance

/-- The tags of `set` and `extracttext` that change the text, and `:local`. -/
def modifierTags : List Word := [.Lower, .Upper, .LowerFirst, .UpperFirst, .QuoteWildcard, .QuoteRegex, .Length, .Replace,
  .EncodeUrl, .Local]

def Shape.rows : Shape → Rows
  | .args rows _ _ | .tags rows => rows
  | .keep => [(.Flags, ⟨1, some .Imap4Flags, .strs⟩)]
  | .size => [(.Over, ⟨1, none, .flag⟩), (.Under, ⟨1, none, .flag⟩)]
  | _ => []

def groupsOkB (e : Entry) : Bool :=
  match e.shape with
  | .args rows _ _ | .tags rows =>
    rows.all fun p => decide (p.1 ∈ modifierTags) ||
      (decide (p.2.slot ≠ 0) && rows.all fun q => decide (q.1 ∈ modifierTags) || (decide (p.2.slot = q.2.slot) == decide (Clash p.1 q.1)))
  | _ => true

/-- C78: in the table two tags have the same number exactly if the documents make them exclude each other. -/
theorem groups_iff {w : Word} {e : Entry} (he : HasEntry w e) {rows : Rows}
    (hs : e.shape = .tags rows ∨ ∃ ps tail, e.shape = .args rows ps tail) {p q : Word × Row} (hp : p ∈ rows) (hq : q ∈ rows)
    (mp : p.1 ∉ modifierTags) (mq : q.1 ∉ modifierTags) : p.2.slot ≠ 0 ∧ (p.2.slot = q.2.slot ↔ Clash p.1 q.1) := by
  have h : groupsOkB e = true := by
    refine entry_all (P := fun _ e => groupsOkB e = true) (ok := fun _ e => groupsOkB e) (fun _ _ h => h) ?_ he
    intro w; cases w <;> decide +kernel
  have hr : (rows.all fun p => decide (p.1 ∈ modifierTags) ||
      (decide (p.2.slot ≠ 0) && rows.all fun q => decide (q.1 ∈ modifierTags) || (decide (p.2.slot = q.2.slot) == decide (Clash p.1 q.1)))) = true := by
    unfold groupsOkB at h
    rcases hs with hs | ⟨ps, tail, hs⟩ <;> (rw [hs] at h; exact h)
  have h1 := List.all_eq_true.1 hr p hp
  rw [decide_eq_false mp, Bool.false_or, Bool.and_eq_true, decide_eq_true_eq] at h1
  refine ⟨h1.1, ?_⟩
  have h2 := List.all_eq_true.1 h1.2 q hq
  rw [decide_eq_false mq, Bool.false_or, beq_iff_eq] at h2
  exact decide_eq_decide.1 h2

theorem reads_tags {x : Ext F} {has : Cap → Bool} {w : Word} {s : Shape} {u r : List (Tok F)} {g : Got F}
    (h : Reads x has w s u r g) :
    g.tags.length ≤ 1 ∨ ∃ rows items, (s = .tags rows ∨ ∃ ps tail, s = .args rows ps tail) ∧ g.tags = taggedOf items ∧
      (∀ w u a, .tagged w u a ∈ items →
        ∃ q, rows.tag w = some q ∧ (∀ c, q.cap = some c → has c = true) ∧ ArgIs x q.kind u a) ∧
      (slotsOf rows items).Nodup := by
  cases h with
  | tags h1 h2 h3 h4 => exact .inr ⟨_, _, .inl rfl, rfl, h2, h3⟩
  | args ha hc => exact .inr ⟨_, _, .inr ⟨_, _, rfl⟩, rfl, ha.tags, ha.once⟩
  | noTail ha hn hc => exact .inr ⟨_, _, .inr ⟨_, _, rfl⟩, rfl, ha.tags, ha.once⟩
  | tail ha hl hc => exact .inr ⟨_, _, .inr ⟨_, _, rfl⟩, rfl, ha.tags, ha.once⟩
  | _ => exact .inl (by simp)

theorem mem_taggedOf {items : List (Item F)} {w : Word} {a : Arg F} (h : (w, a) ∈ taggedOf items) :
    ∃ u, .tagged w u a ∈ items := by
  unfold taggedOf at h
  obtain ⟨i, hi, h⟩ := List.mem_filterMap.1 h
  cases i with
  | plain u b => cases h
  | tagged w' u b =>
    simp only [Option.some.injEq, Prod.mk.injEq] at h
    obtain ⟨rfl, rfl⟩ := h
    exact ⟨u, hi⟩

/-- C78: in accepted arguments no tag stands twice and no two tags of one group stand together, apart from the modifiers
of `set` and `extracttext` and `:local`. -/
theorem exclusive_partial (x : Ext F) (has : Cap → Bool) {w : Word} {e : Entry} (he : HasEntry w e) {ts : List (Tok F)}
    {g : Got F} {r : List (Tok F)} (h : readEntry x has w e ts = some (g, r)) :
    g.tags.Pairwise fun p q => Clash p.1 q.1 → p.1 ∈ modifierTags ∨ q.1 ∈ modifierTags := by
  obtain ⟨-, u, -, hr⟩ := (arguments_iff x has he ts g r).1 h
  rcases reads_tags hr with h1 | ⟨rows, items, hs, hg, ht, hn⟩
  · match hgt : g.tags with
    | [] => exact .nil
    | [p] => exact List.pairwise_singleton _ _
    | p :: q :: l => rw [hgt] at h1; simp at h1
  · have hn' := hn
    unfold slotsOf at hn'
    rw [← hg] at hn'
    unfold List.Nodup at hn'
    rw [List.pairwise_filterMap] at hn'
    refine List.Pairwise.imp_of_mem ?_ hn'
    intro p q hp hq hpq hc
    by_contra hm
    simp only [not_or] at hm
    rw [hg] at hp hq
    obtain ⟨up, hup⟩ := mem_taggedOf (a := p.2) hp
    obtain ⟨uq, huq⟩ := mem_taggedOf (a := q.2) hq
    obtain ⟨rp, hrp, -⟩ := ht _ _ _ hup
    obtain ⟨rq, hrq, -⟩ := ht _ _ _ huq
    have hgp := groups_iff he hs (tag_mem hrp) (tag_mem hrq) hm.1 hm.2
    have hgq := groups_iff he hs (tag_mem hrq) (tag_mem hrp) hm.2 hm.1
    have hsl : rp.slot = rq.slot := hgp.2.2 hc
    refine hpq rp.slot ?_ rq.slot ?_ hsl
    · rw [hrp, Option.bind_some, if_neg hgp.1]
    · rw [hrq, Option.bind_some, if_neg hgq.1]

example : Clash .Is .Regex ∧ Clash .Copy .Copy ∧ ¬ Clash .Is .Comparator ∧ .Is ∉ modifierTags := by decide +kernel

/-- C78 fails for the modifiers: RFC 5229, 4.1, makes two modifiers of the same precedence an error, but
`set :lower :upper "a" "b"` is accepted. -/
theorem set_modifiers_clash : ∃ e, commandEntry .Set = some e ∧
    readEntry someExt (fun _ => true) .Set e [.tag .Lower, .tag .Upper, .string (bytes "a"), .string (bytes "b")] =
      some (⟨[(.Lower, .flag), (.Upper, .flag)], [.text (bytes "a"), .val (.text (bytes "b"))]⟩, []) :=
  ⟨_, rfl, by decide +kernel⟩

/-- The extension that a tag needs, by the documents that define it. -/
def rfcNeeds (command tag : Word) : Option Cap :=
  match tag with
  | .Copy => some .Copy                                     -- RFC 3894
  | .Create => some .Mailbox                                -- RFC 5490
  | .Flags => some .Imap4Flags                              -- RFC 5232
  | .MailboxId => some .MailboxId                           -- RFC 9042
  | .SpecialUse => some .SpecialUse                         -- RFC 8579
  | .List => some .ExtLists                                 -- RFC 6134
  | .ByTrace | .ByMode | .ByTimeRelative | .ByTimeAbsolute => some .RedirectDeliverBy   -- RFC 6009
  | .Ret | .Notify => some .RedirectDsn                     -- RFC 6009
  | .Value | .Count => some .Relational                     -- RFC 5231
  | .Regex => some .Regex                                   -- draft-ietf-sieve-regex
  | .User | .Detail => some .SubAddress                     -- RFC 5233
  | .Fcc => some .Fcc                                       -- RFC 8580
  | .Percent => some .SpamTestPlus                          -- RFC 5235
  | .AnyChild | .Type | .Subtype | .ContentType | .Param => some .Mime   -- RFC 5703
  -- RFC 5703; part of the command in RFC 5230 (vacation) and RFC 5703, 5 (replace)
  | .Mime => if command = .Vacation ∨ command = .Replace then none else some .Mime
  -- RFC 5260; part of the command in RFC 5293 (editheader) and RFC 7352 (duplicate)
  | .Index => if command = .DeleteHeader then none else some .Index
  | .Last => if command ∈ [Word.AddHeader, .DeleteHeader, .Duplicate] then none else some .Index
  -- RFC 6131; part of the command in RFC 7352 (duplicate)
  | .Seconds => if command = .Vacation then some .VacationSeconds else none
  -- RFC 6009; part of the command in RFC 5260 (date)
  | .Zone => if command = .Envelope then some .EnvelopeDeliverBy else none
  | _ => none

/-- The extensions that the name of a command or test needs. -/
def rfcNames : Word → List Cap
  | .FileInto => [.FileInto] | .Replace => [.Replace] | .Enclose => [.Enclose] | .ExtractText => [.ExtractText]
  | .Convert => [.Convert] | .AddHeader | .DeleteHeader => [.EditHeader]
  | .Set | .String => [.Variables] | .Let | .Eval => [.Expressions]
  | .Notify | .NotifyMethodCapability | .ValidNotifyMethod => [.Enotify]
  | .Reject => [.Reject] | .Ereject => [.Ereject] | .Vacation => [.Vacation]
  | .Error | .Ihave => [.Ihave] | .SetFlag | .AddFlag | .RemoveFlag | .HasFlag => [.Imap4Flags]
  | .Include => [.Include] | .Global => [.Include, .Variables]
  | .Envelope => [.Envelope] | .Body => [.Body] | .Date | .CurrentDate => [.Date] | .Duplicate => [.Duplicate]
  | .Environment => [.Environment] | .ValidExtList => [.ExtLists] | .MailboxExists => [.Mailbox]
  | .Metadata | .MetadataExists => [.MboxMetadata] | .ServerMetadata | .ServerMetadataExists => [.ServerMetadata]
  | .MailboxIdExists => [.MailboxId] | .SpamTest => [.SpamTest] | .VirusTest => [.VirusTest]
  | .SpecialUseExists => [.SpecialUse]
  | _ => []

def needsOkB (w : Word) (e : Entry) : Bool :=
  decide (e.caps = rfcNames w) && e.shape.rows.all fun p =>
    (decide (w = .FileInto) && decide (p.1 = .MailboxId)) || decide (p.2.cap = rfcNeeds w p.1)

/-- C79: the table asks for the extensions that the documents prescribe, for every command, test and tag but
`fileinto :mailboxid`. -/
theorem needs_iff {w : Word} {e : Entry} (he : HasEntry w e) : e.caps = rfcNames w ∧
    ∀ p ∈ e.shape.rows, ¬ (w = .FileInto ∧ p.1 = .MailboxId) → p.2.cap = rfcNeeds w p.1 := by
  have h : needsOkB w e = true := by
    refine entry_all (P := fun w e => needsOkB w e = true) (ok := fun w e => needsOkB w e) (fun _ _ h => h) ?_ he
    intro w; cases w <;> decide +kernel
  unfold needsOkB at h
  rw [Bool.and_eq_true, decide_eq_true_eq, List.all_eq_true] at h
  refine ⟨h.1, fun p hp hn => ?_⟩
  have h2 := h.2 p hp
  rw [Bool.or_eq_true, Bool.and_eq_true, decide_eq_true_eq, decide_eq_true_eq, decide_eq_true_eq] at h2
  exact h2.resolve_left hn

/-- C79: an accepted command or test has the extensions of its name and of every tag it uses declared, apart from
`fileinto :mailboxid`. -/
theorem needs_partial (x : Ext F) (has : Cap → Bool) {w : Word} {e : Entry} (he : HasEntry w e) {ts : List (Tok F)}
    {g : Got F} {r : List (Tok F)} (h : readEntry x has w e ts = some (g, r)) :
    (∀ c ∈ rfcNames w, has c = true) ∧
      ∀ t, Uses g t → ¬ (w = .FileInto ∧ t = .MailboxId) → ∀ c, rfcNeeds w t = some c → has c = true := by
  obtain ⟨hc, u, -, hr⟩ := (arguments_iff x has he ts g r).1 h
  obtain ⟨n1, n2⟩ := needs_iff he
  refine ⟨n1 ▸ hc, ?_⟩
  rintro t ⟨a, hta⟩ hn c hcap
  have key : ∀ (rows : Rows) (items : List (Item F)), e.shape.rows = rows → g.tags = taggedOf items →
      (∀ w u a, .tagged w u a ∈ items →
        ∃ q, rows.tag w = some q ∧ (∀ c, q.cap = some c → has c = true) ∧ ArgIs x q.kind u a) → has c = true := by
    intro rows items hs hg ht
    rw [hg] at hta
    obtain ⟨u', hu'⟩ := mem_taggedOf hta
    obtain ⟨q, hq, hqc, -⟩ := ht _ _ _ hu'
    refine hqc c ?_
    rw [← hcap]
    exact n2 (t, q) (hs ▸ tag_mem hq) hn
  generalize hs : e.shape = s at hr key n2
  cases hr with
  | tags h1 h2 h3 h4 => exact key _ _ rfl rfl h2
  | args ha hc => exact key _ _ rfl rfl ha.tags
  | noTail ha hn hc => exact key _ _ rfl rfl ha.tags
  | tail ha hl hc => exact key _ _ rfl rfl ha.tags
  | keepFlags hh hl =>
    have e1 : t = .Flags := by simp at hta; exact hta.1
    subst e1
    have := n2 (.Flags, ⟨1, some .Imap4Flags, .strs⟩) (by simp [Shape.rows]) hn
    rw [hcap] at this
    injection this with this
    subst this; exact hh
  | over =>
    have e1 : t = .Over := by simp at hta; exact hta.1
    subst e1
    cases hcap
  | under =>
    have e1 : t = .Under := by simp at hta; exact hta.1
    subst e1
    cases hcap
  | _ => cases hta

/-- C79 fails for `fileinto :mailboxid`: RFC 9042 asks for the extension `mailboxid`, the code for `mailbox`. -/
theorem fileinto_mailboxid : rfcNeeds .FileInto .MailboxId = some .MailboxId ∧ ∃ e, commandEntry .FileInto = some e ∧
    (readEntry someExt (fun c => [Cap.FileInto, .Mailbox].contains c) .FileInto e
      [.tag .MailboxId, .string (bytes "F1"), .string (bytes "INBOX")]).isSome = true ∧
    (readEntry someExt (fun c => [Cap.FileInto, .MailboxId].contains c) .FileInto e
      [.tag .MailboxId, .string (bytes "F1"), .string (bytes "INBOX")]) = none :=
  ⟨rfl, _, rfl, by decide +kernel, by decide +kernel⟩

/-! ## C80: the order of the arguments -/

theorem uses_perm {g g' : Got F} (h : g.tags.Perm g'.tags) (w : Word) : Uses g w ↔ Uses g' w :=
  ⟨fun ⟨a, ha⟩ => ⟨a, h.subset ha⟩, fun ⟨a, ha⟩ => ⟨a, h.symm.subset ha⟩⟩

theorem checked_perm {x : Ext F} {w : Word} {g g' : Got F} {tail : Option (List (Val F))} (h : g.tags.Perm g'.tags)
    (hp : g.pos = g'.pos) (hc : Checked x w g tail) : Checked x w g' tail := by
  have hk : ∀ t, keysOf w g' t = keysOf w g t := by intro t; unfold keysOf; rw [hp]
  obtain ⟨h1, h2, h3, h4, h5⟩ := hc
  refine ⟨?_, ?_, ?_, ?_, ?_⟩
  · intro hw o ho hu; exact (uses_perm h _).1 (h1 hw o ho ((uses_perm h _).2 hu))
  · intro hw o ho hu; exact (uses_perm h _).1 (h2 hw o ho ((uses_perm h _).2 hu))
  · intro hw hu s hs; rw [hk] at hs; exact h3 hw ((uses_perm h _).2 hu) s hs
  · intro hw ht v hv; rw [hk] at hv; exact h4 hw ht v hv
  · intro hw ht; rw [hk]; exact h5 hw ht

theorem allowed_perm {x : Ext F} {has : Cap → Bool} {rows : Rows} {ps : List Pos} {items items' : List (Item F)}
    (h : items'.Perm items) (hp : plainOf items' = plainOf items) (hl : EndsPlain items') (ha : Allowed x has rows ps items) :
    Allowed x has rows ps items' := by
  refine ⟨fun w u a hm => ha.tags w u a (h.subset hm), ?_, hp ▸ ha.pos, hl⟩
  have : (slotsOf rows items').Perm (slotsOf rows items) := (h.filterMap _).filterMap _
  exact this.nodup_iff.2 ha.once

/-- C80: the order of the tagged arguments among themselves and between the positional ones does not matter.  If
arguments are accepted, then they are a list of arguments such that every rearrangement that keeps the order of the
positional ones and ends with the last of them is accepted, with the same positional arguments and the same tags. -/
theorem order_irrelevant (x : Ext F) (has : Cap → Bool) {w : Word} {e : Entry} (he : HasEntry w e) {rows : Rows}
    {ps : List Pos} {tail : Bool} (hs : e.shape = .args rows ps tail) {ts r : List (Tok F)} {g : Got F}
    (h : readEntry x has w e ts = some (g, r)) :
    ∃ items u, ts = spell items ++ u ++ r ∧ g.tags = taggedOf items ∧ (tail = false → u = []) ∧
      ∀ items', items'.Perm items → plainOf items' = plainOf items → (∃ init v a, items' = init ++ [.plain v a]) →
        ∃ g', readEntry x has w e (spell items' ++ u ++ r) = some (g', r) ∧ g'.pos = g.pos ∧ g'.tags.Perm g.tags := by
  obtain ⟨hc, u, rfl, hr⟩ := (arguments_iff x has he ts g r).1 h
  have hperm : ∀ {i j : List (Item F)}, i.Perm j → (gotOf i).tags.Perm (gotOf j).tags := fun h => h.filterMap _
  have hpos : ∀ {i j : List (Item F)}, plainOf i = plainOf j → (gotOf i).pos = (gotOf j).pos := by
    intro i j h; unfold gotOf; rw [h]
  generalize hsh : e.shape = s at hr
  rw [hs] at hsh
  subst hsh
  cases hr with
  | args ha hk =>
    refine ⟨_, [], by simp, rfl, fun _ => rfl, fun items' hp hpl hl => ⟨gotOf items', ?_, hpos hpl, hperm hp⟩⟩
    refine (arguments_iff x has he _ _ r).2 ⟨hc, spell items', by simp, ?_⟩
    rw [hs]
    exact .args (allowed_perm hp hpl hl ha) (checked_perm (hperm hp.symm) (hpos hpl.symm) hk)
  | noTail ha hn hk =>
    refine ⟨_, [], by simp, rfl, fun _ => rfl, fun items' hp hpl hl => ⟨gotOf items', ?_, hpos hpl, hperm hp⟩⟩
    refine (arguments_iff x has he _ _ r).2 ⟨hc, spell items', by simp, ?_⟩
    rw [hs]
    exact .noTail (allowed_perm hp hpl hl ha) hn (checked_perm (hperm hp.symm) (hpos hpl.symm) hk)
  | tail ha hl' hk =>
    rename_i items v vs
    refine ⟨items, v, by simp, rfl, fun h => (by cases h), fun items' hp hpl hl =>
      ⟨⟨taggedOf items', (plainOf items').map (·.2) ++ [.vals vs]⟩, ?_, by simp [hpl], hperm hp⟩⟩
    refine (arguments_iff x has he _ _ r).2 ⟨hc, spell items' ++ v, by simp, ?_⟩
    rw [hs]
    exact .tail (allowed_perm hp hpl hl ha) hl' (checked_perm (hperm hp.symm) (hpos hpl.symm) hk)

/-- `fileinto :copy :flags ["a", "b"] "Junk";` is a rearrangement of the example above. -/
example :
    let flags : List (Tok Unit) := [.bracketOpen, .string (bytes "a"), .comma, .string (bytes "b"), .bracketClose]
    let a : Arg Unit := .vals [.text (bytes "a"), .text (bytes "b")]
    let junk : Item Unit := .plain [.string (bytes "Junk")] (.val (.text (bytes "Junk")))
    spell [.tagged .Flags flags a, .tagged .Copy [] .flag, junk] ++ [.semicolon] = someToks ∧
    readEntry someExt (fun _ => true) .FileInto someFileInto (spell [.tagged .Copy [] .flag, .tagged .Flags flags a, junk] ++ []) =
      some (⟨[(.Copy, .flag), (.Flags, a)], [.val (.text (bytes "Junk"))]⟩, []) := by decide +kernel

/-! ## C81: strings and string lists -/

/-- A string list of RFC 5228, section 8.2: strings separated by single commas. -/
inductive RfcList (x : Ext F) : List (Tok F) → List (Val F) → Prop where
  | one {t v} : IsLit x t v → RfcList x [t] [v]
  | list {t v ts vs} : IsLit x t v → List.Forall₂ (fun u w => ∃ s, u = [.comma, s] ∧ IsLit x s w) ts vs →
      RfcList x (.bracketOpen :: t :: ts.flatten ++ [.bracketClose]) (v :: vs)

theorem elems_commas {x : Ext F} {ts : List (List (Tok F))} {vs : List (Val F)}
    (h : List.Forall₂ (fun u w => ∃ s, u = [.comma, s] ∧ IsLit x s w) ts vs) : Elems (IsLit x) ts.flatten vs := by
  induction h with
  | nil => exact .nil
  | cons h _ ih =>
    obtain ⟨s, rfl, hs⟩ := h
    exact .comma (.item hs ih)

/-- C81: every string list of RFC 5228 is accepted and has the strings that are written in it, in their order. -/
theorem rfc_list (x : Ext F) {u : List (Tok F)} {vs : List (Val F)} (h : RfcList x u vs) (r : List (Tok F)) :
    readStrings x (u ++ r) = some (vs, r) := by
  refine (readStrings_iff x _ vs r).2 ⟨u, rfl, ?_⟩
  cases h with
  | one h => exact .one h
  | list h1 h2 => exact .list (.item h1 (elems_commas h2))

/-- The strings among tokens. -/
def litsOf (x : Ext F) (u : List (Tok F)) : List (Val F) :=
  u.filterMap fun
    | .string s => some (.text s)
    | .stringNumber n => some (.num n)
    | .stringVar s => if x.varOk s then some (.var s) else none
    | _ => none

theorem elems_lits {x : Ext F} {u : List (Tok F)} {vs : List (Val F)} (h : Elems (IsLit x) u vs) : vs = litsOf x u := by
  induction h with
  | nil => rfl
  | comma _ ih => exact ih
  | item h _ ih =>
    subst ih
    cases h with
    | text => rfl
    | num => rfl
    | var s h => simp [litsOf, h]

/-- C81: whatever is accepted as a list has all its strings, and only them: none is dropped, doubled or moved, and the
list is never empty.
The full claim would say that only lists of RFC 5228 are accepted (`loose_list`, `static_list`). -/
theorem list_strings_partial (x : Ext F) {ts r : List (Tok F)} {vs : List (Val F)} (h : readStrings x ts = some (vs, r)) :
    ∃ u, ts = u ++ r ∧ vs = litsOf x u ∧ vs ≠ [] := by
  obtain ⟨u, hu, hl⟩ := (readStrings_iff x ts vs r).1 h
  refine ⟨u, hu, ?_⟩
  cases hl with
  | one hi => exact ⟨elems_lits (.item hi .nil), by simp⟩
  | list hi =>
    refine ⟨?_, by simp⟩
    rw [elems_lits hi]
    simp [litsOf]

/-- C81 fails the other way: `["a" "b",,]` is no string list of RFC 5228 but is accepted as `["a", "b"]`. -/
theorem loose_list :
    let u : List (Tok Unit) := [.bracketOpen, .string (bytes "a"), .string (bytes "b"), .comma, .comma, .bracketClose]
    readStrings someExt u = some ([.text (bytes "a"), .text (bytes "b")], []) ∧ ∀ vs, ¬ RfcList someExt u vs := by
  refine ⟨by decide +kernel, ?_⟩
  intro vs h
  generalize hu : ([.bracketOpen, .string (bytes "a"), .string (bytes "b"), .comma, .comma, .bracketClose] :
    List (Tok Unit)) = u at h
  cases h with
  | one h => simp at hu
  | list h1 h2 =>
    cases h2 with
    | nil => simp at hu
    | cons h3 h4 =>
      obtain ⟨s, rfl, -⟩ := h3
      simp at hu

/-- C81 fails for constant strings (`:comparator`, `:bymode`, …): the list `["a" "b"]` is accepted, and is its last
string, while `["a", "b"]` is refused. -/
theorem static_list :
    readStatic someExt [.bracketOpen, .string (bytes "a"), .string (bytes "b"), .bracketClose] = some (bytes "b", []) ∧
    readStatic someExt [.bracketOpen, .string (bytes "a"), .comma, .string (bytes "b"), .bracketClose] = none := by
  decide +kernel

example : RfcList someExt [.bracketOpen, .string (bytes "a"), .comma, .string (bytes "b"), .bracketClose]
    [.text (bytes "a"), .text (bytes "b")] :=
  .list (ts := [[.comma, .string (bytes "b")]]) (.text _) (.cons ⟨_, rfl, .text _⟩ .nil)

end Sieve.Args
