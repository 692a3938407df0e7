import Verif.EventModel

/-!
# C111: the host is asked for what the arguments say

For every command and test that is accepted (`readEntry`, C77) the events that the host gets, in any state.
-/

namespace Sieve.Event

open Sieve.Args Sieve.Fields

variable {F S : Type}

open scoped Classical in
/-- The recipient: a list with `:list` (RFC 6134, 2.4), an address without. -/
noncomputable def recipient (g : Got F) (a : Text) : Recipient := if Uses g .List then .list a else .address a

/-! ## Specification -/

/-- A message that has been changed is sent to the host first, under a new number; `id` is the number of the message. -/
inductive Announced (st : State) : List Event → Nat → Prop where
  | changed : st.hasChanges = true → Announced st [.created (st.lastId + 1) st.message] (st.lastId + 1)
  | same : st.hasChanges = false → Announced st [] st.mainId

/-- What a tag with a string says, evaluated. -/
def OneText (env : Env F S) (_ : Word) (a : Arg F) (b : Option Text) : Prop := ∃ v, a = .val v ∧ b = some (env.eval v)

/-- The time limit of a message (RFC 6009, 4.1), if it is a date. -/
structure TimeSent (env : Env F S) (g : Got F) (t : ByTime Int) : Prop where
  absolute : ∀ v, (.ByTimeAbsolute, .val v) ∈ g.tags → ∀ n, env.time (env.eval v) = some n → ∃ m b, t = .absolute n m b ∧
    Stores g [.ByMode] ModeMeans .default m ∧ Stores g [.ByTrace] Flag false b
  relative : ∀ n, (.ByTimeRelative, .num n) ∈ g.tags → ∃ m b, t = .relative n m b ∧
    Stores g [.ByMode] ModeMeans .default m ∧ Stores g [.ByTrace] Flag false b
  none : ¬ Uses g .ByTimeAbsolute → ¬ Uses g .ByTimeRelative → t = .none

/-- A redirect is carried out: the address `a` is one, no limit is reached, and the message does not go back to the user. -/
structure Sends (env : Env F S) (g : Got F) (st : State) (v : Val F) (a : Text) : Prop where
  address : Address.sanitizeAddress (env.eval v) = some a
  redirects : st.numRedirects < env.maxRedirects
  out : st.numOut < env.maxOut
  received : env.received < env.maxReceived
  notUser : Uses g .List ∨ a.map Char.toLower ≠ env.user.map Char.toLower

/-! ## Lemmas -/

theorem built (st : State) : Announced st (buildMessageId st).1.toList (buildMessageId st).2.mainId ∧
    (buildMessageId st).2.hasChanges = false ∧ (buildMessageId st).2.lastId = (if st.hasChanges then st.lastId + 1 else st.lastId) ∧
    (buildMessageId st).2.message = st.message ∧ (buildMessageId st).2.final = st.final ∧
    (buildMessageId st).2.numRedirects = st.numRedirects ∧ (buildMessageId st).2.numOut = st.numOut := by
  unfold buildMessageId
  cases h : st.hasChanges
  · exact ⟨.same h, h, rfl, rfl, rfl, rfl, rfl⟩
  · exact ⟨.changed h, rfl, rfl, rfl, rfl, rfl, rfl⟩

theorem stored_flag {g : Got F} {w : Word} {b : Bool} (h : Stores g [w] Flag false b) : b = true ↔ Uses g w := by
  constructor
  · intro hb
    by_contra hn
    have := h.default (by simpa using hn)
    rw [hb] at this
    cases this
  · rintro ⟨a, ha⟩
    exact (h.given w a ha List.mem_cons_self).2

theorem stored_text (env : Env F S) {g : Got F} {w : Word} {b : Option (Val F)} (h : Stores g [w] One none b) :
    Stores g [w] (OneText env) none (b.map env.eval) where
  given := by
    intro w' a ha hw
    obtain ⟨v, h1, h2⟩ := h.given w' a ha hw
    exact ⟨v, h1, by rw [h2]; rfl⟩
  default := by
    intro hn
    rw [h.default hn]
    rfl

theorem time_sent (env : Env F S) {g : Got F} {t : ByTime (Val F)} (h : TimeIs g t) : TimeSent env g (sentTime env t) where
  absolute := by
    intro v hv n hn
    obtain ⟨v', m, b, h1, rfl, h3, h4⟩ := h.absolute _ hv
    injection h1 with h1
    subst h1
    exact ⟨m, b, by simp only [sentTime, hn, Option.getD_some], h3, h4⟩
  relative := by
    intro n hn
    obtain ⟨n', m, b, h1, rfl, h3, h4⟩ := h.relative _ hn
    injection h1 with h1
    subst h1
    exact ⟨m, b, rfl, h3, h4⟩
  none := by
    intro h1 h2
    rw [h.none h1 h2]
    rfl

/-! ## Actions -/

/-- C111: `redirect`.  The message is sent to the address or list that the command names, with the options it gives, and
without `:copy` it is not kept.  Missing: a time limit that is not a date (`redirect_no_date`). -/
theorem redirect_events_partial (x : Ext F) (has : Cap → Bool) {e : Entry} (he : commandEntry .Redirect = some e)
    {ts : List (Tok F)} {g : Got F} {r : List (Tok F)} (h : readEntry x has .Redirect e ts = some (g, r)) :
    ∃ i v, Redirect.of g = some i ∧ g.pos = [.val v] ∧ ∀ (env : Env F S) (st : State),
      (∀ a, Sends env g st v a → ∃ pre d rt t st', redirect env i st =
          (pre ++ [.send (recipient g a) d rt t st'.mainId], st') ∧
        Announced st pre st'.mainId ∧ Stores g [.Notify] DsnMeans .default d ∧ Stores g [.Ret] RetMeans .default rt ∧
        TimeSent env g t ∧ st'.numRedirects = st.numRedirects + 1 ∧ st'.numOut = st.numOut + 1 ∧ st'.hasChanges = false ∧
        (Uses g .Copy → st'.final = st.final) ∧ (¬ Uses g .Copy → ∀ f id, st'.final ≠ some (.keep f id))) ∧
      ((¬ ∃ a, Sends env g st v a) → redirect env i st = ([], st)) := by
  obtain ⟨i, h1, h2, h3, h4, h5, h6, h7⟩ := redirect_fields_partial x has he h
  refine ⟨i, i.address, h1, h2, fun env st => ⟨?_, ?_⟩⟩
  · intro a ha
    have hl := stored_flag h4
    have hc := stored_flag h3
    have hlim : (decide (st.numRedirects < env.maxRedirects) && decide (st.numOut < env.maxOut) &&
        decide (env.received < env.maxReceived)) = true := by
      simp [ha.redirects, ha.out, ha.received]
    have hown : (!i.list && eqIgnoreAsciiCase a env.user) = false := by
      rcases ha.notUser with hu | hu
      · rw [hl.2 hu]; rfl
      · simp [eqIgnoreAsciiCase, hu]
    have hrec : (if (!i.list) = true then Recipient.address a else .list a) = recipient g a := by
      unfold recipient
      cases hb : i.list
      · rw [if_neg (c := Uses g .List) (fun hu => by rw [hl.2 hu] at hb; cases hb)]
        rfl
      · rw [if_pos (c := Uses g .List) (hl.1 hb)]
        rfl
    unfold redirect
    simp only [ha.address, hlim, if_true, hown, Bool.false_eq_true, if_false, hrec]
    generalize hst : (if (!i.copy) = true then _ else st) = st1
    obtain ⟨b1, b2, b3, b4, b5, b6, b7⟩ := built st1
    have hsame : st1.hasChanges = st.hasChanges ∧ st1.lastId = st.lastId ∧ st1.mainId = st.mainId ∧ st1.message = st.message ∧
        st1.numRedirects = st.numRedirects ∧ st1.numOut = st.numOut ∧ (i.copy = true → st1.final = st.final) ∧
        (i.copy = false → ∀ f id, st1.final ≠ some (.keep f id)) := by
      rw [← hst]
      cases hcp : i.copy
      · cases hf : st.final with
        | none => simp [hf]
        | some ev => cases ev <;> simp [hf]
      · simp
    obtain ⟨s1, s2, s3, s4, s5, s6, s7, s8⟩ := hsame
    refine ⟨_, i.dsn, i.ret, sentTime env i.byTime, { (buildMessageId st1).2 with
      numRedirects := (buildMessageId st1).2.numRedirects + 1, numOut := (buildMessageId st1).2.numOut + 1 }, rfl, ?_, h5, h6, time_sent env h7, ?_, ?_, b2, ?_, ?_⟩
    · have key : ∀ l n, Announced st1 l n → Announced st l n := by
        intro l n hl
        cases hl with
        | changed hch => rw [s2, s4]; exact .changed (s1 ▸ hch)
        | same hch => rw [s3]; exact .same (s1 ▸ hch)
      exact key _ _ b1
    · simp [b6, s5]
    · simp [b7, s6]
    · intro hu; exact b5.trans (s7 (hc.2 hu))
    · intro hu f id
      have : i.copy = false := by
        cases hb : i.copy
        · rfl
        · exact absurd (hc.1 hb) hu
      show (buildMessageId st1).2.final ≠ _
      rw [b5]
      exact s8 this f id
  · intro hn
    unfold redirect
    cases ha : Address.sanitizeAddress (env.eval i.address) with
    | none => rfl
    | some a =>
      simp only
      split
      · rename_i hlim
        simp only [Bool.and_eq_true, decide_eq_true_eq] at hlim
        have hown : (!i.list && eqIgnoreAsciiCase a env.user) = true := by
          by_contra hc
          refine hn ⟨a, ha, hlim.1.1, hlim.1.2, hlim.2, ?_⟩
          cases hb : i.list
          · right
            intro heq
            exact hc (by simp [hb, eqIgnoreAsciiCase, heq])
          · exact .inl ((stored_flag h4).1 hb)
        rw [if_pos hown]
      · rfl

/-- A time limit that is not a date becomes the first second of 1970. -/
theorem redirect_no_date (env : Env F S) {v : Val F} {m : ByMode} {b : Bool} (h : env.time (env.eval v) = none) :
    sentTime env (.absolute v m b) = .absolute 0 m b := by
  simp [sentTime, h]

/-- C111: `fileinto`. -/
theorem fileinto_events (x : Ext F) (has : Cap → Bool) {e : Entry} (he : commandEntry .FileInto = some e)
    {ts : List (Tok F)} {g : Got F} {r : List (Tok F)} (h : readEntry x has .FileInto e ts = some (g, r)) :
    ∃ i v, FileInto.of g = some i ∧ g.pos = [.val v] ∧ ∀ (env : Env F S) (st : State),
      ∃ pre fl mid su cr st', fileInto env i st = (pre ++ [.fileInto (env.eval v) fl mid su cr st'.mainId], st') ∧
        Announced st pre st'.mainId ∧ Stores g [.MailboxId] (OneText env) none mid ∧ Stores g [.SpecialUse] (OneText env) none su ∧
        Stores g [.Create] Flag false cr ∧
        (∀ vs, (.Flags, .vals vs) ∈ g.tags → vs ≠ [] → fl = Flags.tokens env.ws (vs.map env.eval)) ∧
        ((∀ vs, (.Flags, .vals vs) ∈ g.tags → vs = []) → fl = Flags.flagsOf env.flagText) ∧ st'.hasChanges = false ∧
        (Uses g .Copy → st'.final = st.final) ∧
        (¬ Uses g .Copy → ∀ f id, st'.final = some (.keep f id) → f ≠ [] ∧ st.final = st'.final) := by
  obtain ⟨i, h1, h2, h3, h4, h5, h6, h7⟩ := fileinto_fields x has he h
  refine ⟨i, i.folder, h1, h2, fun env st => ?_⟩
  obtain ⟨b1, b2, b3, b4, b5, b6, b7⟩ := built st
  have hc := stored_flag h3
  unfold fileInto
  simp only
  generalize hst : (if (_ : Bool) = true then _ else (buildMessageId st).2) = st1
  have hsame : st1.hasChanges = false ∧ st1.mainId = (buildMessageId st).2.mainId ∧ (i.copy = true → st1.final = st.final) ∧
      (i.copy = false → ∀ f id, st1.final = some (.keep f id) → f ≠ [] ∧ st.final = st1.final) := by
    rw [← hst, b5]
    cases hcp : i.copy
    · cases hf : st.final with
      | none => simp [b2]
      | some ev =>
        cases ev with
        | keep f id =>
          cases f
          · simp [b2]
          · simp [b2, b5, hf]
        | _ => simp [b2]
    · simp [b2, b5]
  obtain ⟨s1, s2, s3, s4⟩ := hsame
  refine ⟨_, _, _, _, _, st1, rfl, ?_, stored_text env h6, stored_text env h7, h4, ?_, ?_, s1, ?_, ?_⟩
  · rw [s2]; exact b1
  · intro vs hv hne
    have : Arg.vals vs = .vals i.flags := h5.given _ _ hv List.mem_cons_self
    injection this with this
    subst this
    simp [flags, Flags.localOrGlobal, hne]
  · intro hv
    have : i.flags = [] := by
      by_contra hne
      by_cases hu : Uses g .Flags
      · obtain ⟨a, ha⟩ := hu
        have h8 : a = .vals i.flags := h5.given _ _ ha List.mem_cons_self
        subst h8
        exact hne (hv _ ha)
      · exact hne (h5.default (by simpa using hu))
    simp [flags, Flags.localOrGlobal, this]
  · intro hu; exact s3 (hc.2 hu)
  · intro hu
    refine s4 ?_
    cases hb : i.copy
    · rfl
    · exact absurd (hc.1 hb) hu

theorem keep_read {x : Ext F} {has : Cap → Bool} {ts : List (Tok F)} {g : Got F} {r : List (Tok F)}
    (h : readEntry x has .Keep ⟨[], .keep⟩ ts = some (g, r)) : g.tags = [] ∨ ∃ vs, g.tags = [(.Flags, .vals vs)] := by
  simp only [readEntry, List.all_nil, if_true, readShape] at h
  unfold readKeep at h
  split at h
  · split at h
    · rw [Option.map_eq_some_iff] at h
      obtain ⟨p, -, hp⟩ := h
      injection hp with hp _
      subst hp
      exact .inr ⟨_, rfl⟩
    · cases h
  · injection h with h
    injection h with h _
    subst h
    exact .inl rfl

/-- C111: `keep`. -/
theorem keep_events (x : Ext F) (has : Cap → Bool) {e : Entry} (he : commandEntry .Keep = some e) {ts : List (Tok F)}
    {g : Got F} {r : List (Tok F)} (h : readEntry x has .Keep e ts = some (g, r)) (env : Env F S) (st : State) :
    ∃ fl st', (keep env g st).2 = st' ∧ st'.final = some (.keep fl st'.mainId) ∧ Announced st (keep env g st).1 st'.mainId ∧
      (∀ vs, (.Flags, .vals vs) ∈ g.tags → vs ≠ [] → fl = Flags.tokens env.ws (vs.map env.eval)) ∧
      ((∀ vs, (.Flags, .vals vs) ∈ g.tags → vs = []) → fl = Flags.flagsOf env.flagText) := by
  injection he with he
  subst he
  obtain ⟨b1, -⟩ := built st
  refine ⟨_, _, rfl, rfl, b1, ?_, ?_⟩
  · intro vs hv hne
    rcases keep_read h with hg | ⟨vs', hg⟩ <;> rw [hg] at hv
    · cases hv
    · simp only [List.mem_singleton, Prod.mk.injEq, Arg.vals.injEq, true_and] at hv
      subst hv
      simp [hg, flags, Flags.localOrGlobal, hne]
  · intro hv
    rcases keep_read h with hg | ⟨vs', hg⟩
    · simp [hg, flags, Flags.localOrGlobal]
    · have := hv vs' (by rw [hg]; exact List.mem_cons_self)
      simp [hg, flags, Flags.localOrGlobal, this]

/-- C111: `reject` and `ereject`. -/
theorem reject_events (x : Ext F) (has : Cap → Bool) {w : Word} (hw : w = .Reject ∨ w = .Ereject) {e : Entry}
    (he : commandEntry w = some e) {ts : List (Tok F)} {g : Got F} {r : List (Tok F)}
    (h : readEntry x has w e ts = some (g, r)) :
    ∃ v, g.pos = [.val v] ∧ ∀ (env : Env F S) (st : State), reject env (w = .Ereject) v st =
      ([.reject (w = .Ereject) (env.eval v)], { st with final := none }) := by
  have hs : ∃ rows, e.shape = .args rows [.str] false := by
    rcases hw with rfl | rfl <;> (have he' := he; injection he' with he'; subst he'; exact ⟨_, rfl⟩)
  obtain ⟨rows, hs⟩ := hs
  obtain ⟨v, hp⟩ := pos_val (.inl he) h (by simp) hs
  exact ⟨v, hp, fun _ _ => rfl⟩

/-- C111: `include`.  The host is asked for the script with the name and place that the command gives, if the script is not
known, and only then. -/
theorem include_events (x : Ext F) (has : Cap → Bool) {e : Entry} (he : commandEntry .Include = some e) {ts : List (Tok F)}
    {g : Got F} {r : List (Tok F)} (h : readEntry x has .Include e ts = some (g, r)) :
    ∃ i v gl, Include.of g = some i ∧ g.pos = [.val v] ∧ Stores g [.Personal, .Global] PlaceMeans false gl ∧
      ∀ env : Env F S,
        (env.eval v = [] → «include» env i = .none) ∧
        (env.eval v ≠ [] → Uses g .Once → ∀ s, env.cache gl (env.eval v) = some s → «include» env i = .none) ∧
        (env.eval v ≠ [] → env.maxNested ≤ env.depth → ¬ (Uses g .Once ∧ env.cache gl (env.eval v) ≠ none) →
          «include» env i = .tooMany) ∧
        (env.eval v ≠ [] → env.depth < env.maxNested →
          (¬ Uses g .Once → ∀ s, env.cache gl (env.eval v) = some s → «include» env i = .cached s) ∧
          (env.cache gl (env.eval v) = none →
            (∀ s, env.registered (env.eval v) = some s → «include» env i = .cached s) ∧
            (env.registered (env.eval v) = none → ∃ op, Stores g [.Optional] Flag false op ∧
              «include» env i = .event (.includeScript gl (env.eval v) op)))) := by
  obtain ⟨i, h1, h2, h3, h4, h5⟩ := include_fields x has he h
  have ho := stored_flag h4
  refine ⟨i, i.value, i.isGlobal, h1, h2, h3, fun env => ⟨?_, ?_, ?_, ?_⟩⟩
  · intro hn
    simp [«include», hn]
  · intro hn hu s hs
    simp [«include», hn, ho.2 hu, hs]
  · intro hn hd hu
    have : (!i.once || (env.cache i.isGlobal (env.eval i.value)).isNone) = true := by
      cases hb : i.once
      · rfl
      · cases hc : env.cache i.isGlobal (env.eval i.value) with
        | none => rfl
        | some s => exact absurd ⟨ho.1 hb, by rw [hc]; simp⟩ hu
    simp only [«include», this, if_true, if_neg (Nat.not_lt.2 hd)]
    simp [hn]
  · intro hn hd
    refine ⟨?_, ?_⟩
    · intro hu s hs
      have : i.once = false := by
        cases hb : i.once
        · rfl
        · exact absurd (ho.1 hb) hu
      simp [«include», hn, this, hd, hs]
    · intro hc
      refine ⟨?_, ?_⟩
      · intro s hs
        simp [«include», hn, hd, hc, hs]
      · intro hr
        exact ⟨i.optional, h5, by simp [«include», hn, hd, hc, hr]⟩

/-! ## Tests -/

theorem pos_vals {x : Ext F} {has : Cap → Bool} {w : Word} {e : Entry} {ts : List (Tok F)} {g : Got F} {r : List (Tok F)}
    (he : HasEntry w e) (h : readEntry x has w e ts = some (g, r)) {rows : Rows} {b : Bool}
    (hs : e.shape = .args rows [.strs b] false) : ∃ vs, g.pos = [.vals vs] := by
  obtain ⟨l, hl, hg⟩ := positions he h hs
  rcases hl with _ | ⟨⟨u1, h1⟩, _ | _⟩
  rcases hg with hg | ⟨hg, -⟩
  · rw [hg]
    cases b <;> (cases h1; exact ⟨_, rfl⟩)
  · cases hg

/-- C111: `mailboxexists` and `mailboxidexists`: all of the names, or identifiers, in their order. -/
theorem mailboxes_events (x : Ext F) (has : Cap → Bool) {w : Word} (hw : w = .MailboxExists ∨ w = .MailboxIdExists) {e : Entry}
    (he : testEntry w = some e) {ts : List (Tok F)} {g : Got F} {r : List (Tok F)}
    (h : readEntry x has w e ts = some (g, r)) :
    ∃ vs, g.pos = [.vals vs] ∧ ∀ (env : Env F S) ms,
      List.Forall₂ (fun v m => m = if w = .MailboxExists then Mailbox.name (env.eval v) else .id (env.eval v)) vs ms →
      (if w = .MailboxExists then mailboxExists env vs else mailboxIdExists env vs) = .mailboxExists ms [] := by
  have hs : e.shape = .args [] [.strs false] false := by
    rcases hw with rfl | rfl <;> (have he' := he; injection he' with he'; subst he'; rfl)
  obtain ⟨vs, hp⟩ := pos_vals (.inr he) h hs
  refine ⟨vs, hp, fun env ms hm => ?_⟩
  have key : ∀ (f : Val F → Mailbox) (l : List (Val F)) (k : List Mailbox), List.Forall₂ (fun v m => m = f v) l k → l.map f = k := by
    intro f l k hk
    induction hk with
    | nil => rfl
    | cons h _ ih => rw [List.map_cons, ih, h]
  rcases hw with rfl | rfl
  · simp only [if_true] at hm ⊢
    rw [mailboxExists, key _ _ _ hm]
  · simp only [reduceCtorEq, if_false] at hm ⊢
    rw [mailboxIdExists, key _ _ _ hm]

/-- C111: `specialuse_exists`, with and without the name of a mailbox. -/
theorem specialuse_events (x : Ext F) (has : Cap → Bool) {e : Entry} (he : testEntry .SpecialUseExists = some e)
    {ts : List (Tok F)} {g : Got F} {r : List (Tok F)} (h : readEntry x has .SpecialUseExists e ts = some (g, r)) :
    ∃ i, SpecialUse.of g = some i ∧ ∀ env : Env F S,
      (∃ vs, g.pos = [.vals vs] ∧ specialUseExists env i = .mailboxExists [] (vs.map env.eval)) ∨
      (∃ m vs, g.pos = [.vals [m], .vals vs] ∧ specialUseExists env i = .mailboxExists [.name (env.eval m)] (vs.map env.eval)) := by
  have he' := he
  injection he' with he'
  subst he'
  obtain ⟨-, u, -, hr⟩ := (arguments_iff x has (.inr he) ts g r).1 h
  have key : ∀ {items : List (Item F)}, Allowed x has [] [.strs false] items → ∃ vs, (plainOf items).map (·.2) = [.vals vs] := by
    intro items ha
    have hp := ha.pos
    generalize plainOf items = l at hp
    cases hp with
    | @cons _ q _ _ h1 h2 =>
      cases h2
      obtain ⟨u, a⟩ := q
      cases h1
      exact ⟨_, rfl⟩
  cases hr with
  | noTail ha hn hc =>
    obtain ⟨vs, hv⟩ := key ha
    exact ⟨⟨none, vs⟩, by simp only [SpecialUse.of, gotOf, hv], fun env => .inl ⟨vs, hv, rfl⟩⟩
  | @tail _ _ items u vs _ ha hl hc =>
    obtain ⟨ms, hv⟩ := key ha
    have h1 := hc.mailbox rfl (by simp)
    simp only [keysOf, gotOf, hv] at h1
    obtain ⟨m, rfl⟩ : ∃ m, ms = [m] := List.length_eq_one_iff.1 (by simpa using h1)
    exact ⟨⟨some m, vs⟩, by simp [SpecialUse.of, hv], fun env => .inr ⟨m, vs, by simp [hv], rfl⟩⟩

/-! ## Examples -/

/-- Values are constants. -/
def someEnv : Env Unit Unit where
  eval := fun | .text s => s.map fun b => Char.ofNat b.toNat | _ => []
  user := "me@example.org".toList
  maxRedirects := 1
  maxOut := 3
  maxReceived := 10
  maxNested := 3
  received := 2
  time := fun t => if t = "2026-11-16T00:00:00Z".toList then some 1794787200 else none
  ws := (· = ' ')
  flagText := "\\Seen x".toList
  cache := fun _ _ => none
  registered := fun _ => none
  depth := 1

def someState : State := ⟨true, 4, 0, [72, 105], some (.keep [] 0), 0, 1⟩

/-- The events of a command that is read with `commandEntry`. -/
def eventsOf {α : Type} (w : Word) (ts : List (Tok Unit)) (of : Got Unit → Option α)
    (run : Env Unit Unit → α → State → List Event × State) : Option (List Event × Option Event) :=
  (commandEntry w).bind fun e => (readEntry someExt (fun _ => true) w e ts).bind fun p =>
    (of p.1).map fun i => ((run someEnv i someState).1, (run someEnv i someState).2.final)

/-- `redirect :copy :bymode "return" :bytimeabsolute "2026-11-16T00:00:00Z" "<a@b.c>";` -/
example : eventsOf .Redirect [.tag .Copy, .tag .ByMode, .string (bytes "return"), .tag .ByTimeAbsolute,
      .string (bytes "2026-11-16T00:00:00Z"), .string (bytes "<a@b.c>"), .semicolon] Redirect.of redirect =
    some ([.created 5 [72, 105], .send (.address "a@b.c".toList) .default .default (.absolute 1794787200 .ret false) 5],
      some (.keep [] 0)) := by
  decide +kernel

/-- `redirect :list "Me@Example.org"`: a list with the name of the user -/
example : eventsOf .Redirect [.tag .List, .string (bytes "Me@Example.org"), .semicolon] Redirect.of redirect =
    some ([.created 5 [72, 105], .send (.list "Me@Example.org".toList) .default .default .none 5], none) := by
  decide +kernel

/-- `redirect "Me@Example.org"` -/
example : eventsOf .Redirect [.string (bytes "Me@Example.org"), .semicolon] Redirect.of redirect = some ([], some (.keep [] 0)) := by
  decide +kernel

/-- C111 (negation): `redirect :bytimeabsolute "soon" "a@b.c";` -/
theorem redirect_soon : eventsOf .Redirect [.tag .ByTimeAbsolute, .string (bytes "soon"), .string (bytes "a@b.c"), .semicolon]
      Redirect.of redirect =
    some ([.created 5 [72, 105], .send (.address "a@b.c".toList) .default .default (.absolute 0 .default false) 5], none) := by
  decide +kernel

/-- `fileinto :create :flags ["a", "b", "c"] :mailboxid "7" "Box";` -/
example : eventsOf .FileInto [.tag .Create, .tag .Flags, .bracketOpen, .string (bytes "a"), .comma, .string (bytes "b"), .comma,
      .string (bytes "c"), .bracketClose,
      .tag .MailboxId, .string (bytes "7"), .string (bytes "Box"), .semicolon] FileInto.of fileInto =
    some ([.created 5 [72, 105], .fileInto "Box".toList [['a'], ['b'], ['c']] (some ['7']) none true 5], none) := by
  decide +kernel

/-- `keep;` -/
example : eventsOf .Keep [.semicolon] some keep =
    some ([.created 5 [72, 105]], some (.keep ["\\Seen".toList, ['x']] 5)) := by
  decide +kernel

/-- `specialuse_exists "Box" ["\\Sent", "\\Junk"]` -/
example : ((testEntry .SpecialUseExists).bind fun e => (readEntry someExt (fun _ => true) .SpecialUseExists e
      [.string (bytes "Box"), .bracketOpen, .string (bytes "\\Sent"), .comma, .string (bytes "\\Junk"), .bracketClose]).bind fun p =>
        (SpecialUse.of p.1).map (specialUseExists someEnv)) =
    some (.mailboxExists [.name "Box".toList] ["\\Sent".toList, "\\Junk".toList]) := by
  decide +kernel

end Sieve.Event
