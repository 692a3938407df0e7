import Verif.NotifyModel
import Verif.VacationProps
import Verif.ArgsModel

/-!
# What a notification does (C90) and what its message consists of (C91)
-/

namespace Sieve.Notify
open Sieve.Tests (Str Field Parsed)
open Sieve.Vacation (Hd asText asText_iff lower same cutSubject OneLine readMessage startsBlank read_named oneLine_raw
  nameOf cut_oneLine)

/-! ## C90: when a notification is made, and how -/

/-- A message sent automatically: it has a field `Auto-Submitted` whose text is not `no`. -/
def Automatic (hs : List (Hd × Field)) : Prop :=
  ∃ name f, (Hd.other name, f) ∈ hs ∧ lower name = lower "Auto-Submitted".toList ∧
    ∀ t, f.parsed = .text t → lower t ≠ lower "no".toList

/-- The method is a URI with this scheme and something after the colon. -/
def Uri (method scheme rest : Str) : Prop :=
  method = scheme ++ ':' :: rest ∧ ':' ∉ scheme ∧ rest ≠ []

/-- Mail is to be sent: the scheme is `mailto`, and not too many messages have been sent. -/
def ByMail (c : Ctx) (scheme : Str) : Prop := lower scheme = lower "mailto".toList ∧ c.numOut < c.maxOut

/-- The address `s` means: the text in the last pair of angle brackets, or all of it if there are none. -/
inductive Denotes : Str → Str → Prop
  | angle {p t q} : '<' ∉ t ++ '>' :: q → '>' ∉ q → Denotes (p ++ '<' :: (t ++ '>' :: q)) t
  | plain {s} : (∀ p r, s = p ++ '<' :: r → '<' ∉ r → '>' ∉ r) → Denotes s s

theorem same_iff (a b : Str) : same a b = true ↔ lower a = lower b := by
  unfold same; exact beq_iff_eq

theorem automatic_iff (hs : List (Hd × Field)) : hs.any automatic = true ↔ Automatic hs := by
  rw [List.any_eq_true]
  constructor
  · rintro ⟨⟨n, f⟩, hm, h⟩
    cases n with
    | other name =>
      simp only [automatic, Bool.and_eq_true] at h
      refine ⟨name, f, hm, (same_iff _ _).1 h.1, fun t ht => ?_⟩
      rw [(asText_iff _ _).2 ht] at h
      intro e
      have h2 := h.2
      simp only [(same_iff _ _).2 e] at h2
      exact absurd h2 (by decide)
    | _ => simp [automatic] at h
  · rintro ⟨name, f, hm, h1, h2⟩
    refine ⟨_, hm, ?_⟩
    simp only [automatic, Bool.and_eq_true]
    refine ⟨(same_iff _ _).2 h1, ?_⟩
    cases ht : asText f.parsed with
    | none => rfl
    | some t =>
      have := h2 t ((asText_iff _ _).1 ht)
      simp only [Bool.not_eq_true']
      rw [Bool.eq_false_iff]
      exact fun e => this ((same_iff _ _).1 e)

theorem uri_iff : ∀ (s scheme rest : Str), parseUri s = some (scheme, rest) ↔ Uri s scheme rest
  | [], scheme, rest => by simp [parseUri, Uri]
  | c :: cs, scheme, rest => by
    rw [parseUri]
    by_cases hc : c = ':'
    · rw [if_pos hc]
      subst hc
      cases scheme with
      | nil =>
        cases cs with
        | nil => simp [Uri]
        | cons d ds => simp [Uri]; rintro rfl; simp
      | cons d ds =>
        cases cs with
        | nil => simp [Uri]
        | cons e es =>
          simp only [Uri, List.isEmpty_cons, Bool.false_eq_true, if_false, Option.some.injEq, Prod.mk.injEq, reduceCtorEq,
            false_and, List.cons_append, List.cons.injEq, List.mem_cons, not_or, false_iff, not_and]
          rintro ⟨h, _⟩ ⟨h', _⟩
          exact absurd h h'
    · rw [if_neg hc]
      cases scheme with
      | nil => simp [Uri, hc]
      | cons d ds =>
        have ih := uri_iff cs ds rest
        simp only [Option.map_eq_some_iff, Prod.mk.injEq, List.cons.injEq, Prod.exists]
        constructor
        · rintro ⟨a, b, h, ⟨rfl, rfl⟩, rfl⟩
          obtain ⟨h1, h2, h3⟩ := ih.1 h
          exact ⟨by rw [h1]; rfl, by simp [h2, Ne.symm hc], h3⟩
        · rintro ⟨h1, h2, h3⟩
          simp only [List.cons_append, List.cons.injEq, List.mem_cons, not_or] at h1 h2
          exact ⟨ds, rest, ih.2 ⟨h1.2, h2.2, h3⟩, ⟨h1.1, rfl⟩, rfl⟩

theorem uri_none (s : Str) : parseUri s = none ↔ ∀ scheme rest, ¬ Uri s scheme rest := by
  constructor
  · intro h a b hu
    rw [(uri_iff s a b).2 hu] at h
    simp at h
  · intro h
    cases hp : parseUri s with
    | none => rfl
    | some r => exact absurd ((uri_iff s r.1 r.2).1 hp) (h _ _)

theorem byMail_iff (c : Ctx) (scheme : Str) :
    (same scheme "mailto".toList && decide (c.numOut < c.maxOut)) = true ↔ ByMail c scheme := by
  rw [Bool.and_eq_true, same_iff, decide_eq_true_eq]; rfl

/-- The text a notification has if it is not sent by mail. -/
def HostText (c : Ctx) (a : Args) (t : Str) : Prop :=
  a.message = some t ∨ (a.message = none ∧ c.subject = some t) ∨ (a.message = none ∧ c.subject = none ∧ t = [])

/-- The message is announced under the next number. -/
def Announced (c : Ctx) (es : List Ev) (m : Str) (es' : List Ev) : Prop := es = .created (c.lastId + 1) m :: es'

/-- What the action has to do. -/
inductive Does (x : Ext) (c : Ctx) (a : Args) (date msgId : Str) : Result → Prop
  /-- Nothing for a message sent automatically. -/
  | automatic : Automatic c.headers → Does x c a date msgId ⟨[], c.lastId, c.numOut⟩
  /-- Nothing for what is no URI. -/
  | noUri : (∀ scheme rest, ¬ Uri a.method scheme rest) → Does x c a date msgId ⟨[], c.lastId, c.numOut⟩
  /-- Nothing for a wrong `mailto` URI. -/
  | wrong {scheme rest} : Uri a.method scheme rest → ByMail c scheme → mailOf x rest = none →
      Does x c a date msgId ⟨[], c.lastId, c.numOut⟩
  /-- A message to all recipients of a `mailto` URI. -/
  | mail {scheme rest m rcpts} : ¬ Automatic c.headers → Uri a.method scheme rest → ByMail c scheme →
      mailOf x rest = some m → List.Forall₂ Denotes (m.to_ ++ m.cc ++ m.bcc) rcpts →
      Does x c a date msgId ⟨[.created (c.lastId + 1) (render c a m date msgId), .send rcpts (c.lastId + 1)]
        ++ (a.fcc.map fun f => .fileInto f (c.lastId + 1)).toList, c.lastId + 1, c.numOut⟩
  /-- Anything else is left to the host. -/
  | host {scheme rest t} : ¬ Automatic c.headers → Uri a.method scheme rest → ¬ ByMail c scheme → HostText c a t →
      a.fcc = none →
      Does x c a date msgId ⟨[.notify a.method a.from (importance a) a.options t], c.lastId, c.numOut + 1⟩
  /-- With a copy to be filed, which has a message of its own. -/
  | hostCopy {scheme rest t f} : ¬ Automatic c.headers → Uri a.method scheme rest → ¬ ByMail c scheme → HostText c a t →
      a.fcc = some f →
      Does x c a date msgId ⟨[.created (c.lastId + 1) (render c a noMail date msgId),
        .notify a.method a.from (importance a) a.options t, .fileInto f (c.lastId + 1)], c.lastId + 1, c.numOut + 1⟩

theorem rsplit_some (ch : Char) : ∀ (s a b : Str), rsplit ch s = some (a, b) ↔ s = a ++ ch :: b ∧ ch ∉ b
  | [], a, b => by simp [rsplit]
  | c :: cs, a, b => by
    have ih := rsplit_some ch cs
    rw [rsplit]
    cases hr : rsplit ch cs with
    | some r =>
      obtain ⟨u, v⟩ := r
      obtain ⟨h1, h2⟩ := (ih u v).1 hr
      simp only [Option.some.injEq, Prod.mk.injEq]
      constructor
      · rintro ⟨rfl, rfl⟩
        exact ⟨by rw [h1]; rfl, h2⟩
      · rintro ⟨h3, h4⟩
        cases a with
        | nil =>
          simp only [List.nil_append, List.cons.injEq] at h3
          rw [← h3.2, h1] at h4
          simp at h4
        | cons d a =>
          simp only [List.cons_append, List.cons.injEq] at h3
          have := (ih a b).2 ⟨h3.2, h4⟩
          rw [hr] at this
          simp only [Option.some.injEq, Prod.mk.injEq] at this
          exact ⟨by rw [this.1, h3.1], this.2⟩
    | none =>
      simp only
      have hn : ch ∉ cs := by
        intro hm
        obtain ⟨s, t, he, hnt⟩ : ∃ s t, cs = s ++ ch :: t ∧ ch ∉ t := by
          clear hr ih
          induction cs with
          | nil => simp at hm
          | cons d ds ih =>
            by_cases h : ch ∈ ds
            · obtain ⟨s, t, he, hnt⟩ := ih h
              exact ⟨d :: s, t, by rw [he]; rfl, hnt⟩
            · simp only [List.mem_cons, h, or_false] at hm
              exact ⟨[], ds, by rw [hm]; rfl, h⟩
        have := (ih s t).2 ⟨he, hnt⟩
        rw [hr] at this
        simp at this
      constructor
      · intro h
        split at h
        · rename_i hc
          simp only [Option.some.injEq, Prod.mk.injEq] at h
          obtain ⟨rfl, rfl⟩ := h
          exact ⟨by rw [hc]; rfl, hn⟩
        · simp at h
      · rintro ⟨h1, h2⟩
        cases a with
        | nil =>
          simp only [List.nil_append, List.cons.injEq] at h1
          rw [if_pos h1.1, h1.2]
        | cons d a =>
          simp only [List.cons_append, List.cons.injEq] at h1
          exact absurd (by rw [h1.2]; simp) hn

/-- What `bare` makes of an address is what the address means. -/
theorem bare_iff (s t : Str) : bare s = t ↔ Denotes s t := by
  have d : Denotes s (bare s) := by
    unfold bare
    cases h : rsplit '<' s with
    | none =>
      refine .plain fun p r e hr => ?_
      rw [(rsplit_some '<' s p r).2 ⟨e, hr⟩] at h
      simp at h
    | some v =>
      obtain ⟨p, r⟩ := v
      obtain ⟨rfl, hr⟩ := (rsplit_some _ _ _ _).1 h
      simp only
      cases h2 : rsplit '>' r with
      | none =>
        refine .plain fun p' r' e hr' => ?_
        have := (rsplit_some '<' _ p' r').2 ⟨e, hr'⟩
        rw [h] at this
        simp only [Option.some.injEq, Prod.mk.injEq] at this
        rw [← this.2]
        intro hm
        obtain ⟨a, b, he, hb⟩ : ∃ a b, r = a ++ '>' :: b ∧ '>' ∉ b := by
          clear h2 h hr e this
          induction r with
          | nil => simp at hm
          | cons d ds ih =>
            by_cases h : '>' ∈ ds
            · obtain ⟨s, t, he, hnt⟩ := ih h
              exact ⟨d :: s, t, by rw [he]; rfl, hnt⟩
            · simp only [List.mem_cons, h, or_false] at hm
              exact ⟨[], ds, by rw [hm]; rfl, h⟩
        rw [(rsplit_some '>' r a b).2 ⟨he, hb⟩] at h2
        simp at h2
      | some w =>
        obtain ⟨t', q⟩ := w
        obtain ⟨rfl, hq⟩ := (rsplit_some _ _ _ _).1 h2
        exact .angle hr hq
  constructor
  · rintro rfl; exact d
  · intro h
    cases h with
    | @angle p t q h1 h2 =>
      unfold bare
      rw [(rsplit_some '<' _ _ _).2 ⟨rfl, h1⟩]
      simp only
      rw [(rsplit_some '>' _ _ _).2 ⟨rfl, h2⟩]
    | plain h1 =>
      unfold bare
      cases hs : rsplit '<' s with
      | none => rfl
      | some v =>
        obtain ⟨e, hr⟩ := (rsplit_some _ _ _ _).1 hs
        have := h1 _ _ e hr
        simp only
        cases h2 : rsplit '>' v.2 with
        | none => rfl
        | some w => exact absurd (by rw [((rsplit_some _ _ _ _).1 h2).1]; simp) this

theorem hostText (c : Ctx) (a : Args) (t : Str) :
    text c a = t ↔ HostText c a t := by
  unfold HostText text
  cases a.message with
  | some m => simp
  | none =>
    cases c.subject with
    | some s => simp
    | none => simp [eq_comm]

theorem bareAll : ∀ (l rs : List Str), l.map bare = rs ↔ List.Forall₂ Denotes l rs
  | [], rs => by cases rs <;> simp
  | s :: ss, rs => by
    cases rs with
    | nil => simp
    | cons r rs => simp [bare_iff, bareAll ss rs]

/-- **C90.** The action does exactly what it has to do: nothing for a message that was sent automatically, for what is
no URI and for a wrong `mailto` URI; otherwise it sends one message to all recipients of a `mailto` URI unless too many
messages have been sent, or leaves the notification to the host, and files a copy of its message where it is asked to. -/
theorem notify_iff (x : Ext) (c : Ctx) (a : Args) (date msgId : Str) (r : Result) :
    exec x c a date msgId = r ↔ Does x c a date msgId r := by
  have fcc1 : ∀ id, fileCopy a id = (a.fcc.map fun f => Ev.fileInto f id).toList := by
    intro id
    unfold fileCopy
    cases a.fcc <;> rfl
  constructor
  · rintro rfl
    unfold exec
    split
    · rename_i h
      exact .automatic ((automatic_iff _).1 h)
    · rename_i h
      have ha : ¬ Automatic c.headers := fun e => h ((automatic_iff _).2 e)
      split
      · rename_i hu
        exact .noUri ((uri_none _).1 hu)
      · rename_i scheme rest hu
        have hu := (uri_iff _ _ _).1 hu
        split
        · rename_i hb
          have hb := (byMail_iff _ _).1 hb
          split
          · rename_i hm
            exact .wrong hu hb hm
          · rename_i m hm
            rw [fcc1]
            exact .mail ha hu hb hm ((bareAll _ _).1 rfl)
        · rename_i hb
          have hb : ¬ ByMail c scheme := fun e => hb ((byMail_iff _ _).2 e)
          cases hf : a.fcc with
          | none => exact .host ha hu hb ((hostText _ _ _).1 rfl) hf
          | some f =>
            simp only [Option.isSome_some, if_true]
            rw [fcc1, hf]
            exact .hostCopy ha hu hb ((hostText _ _ _).1 rfl) hf
  · intro h
    unfold exec
    cases h with
    | automatic h => rw [if_pos ((automatic_iff _).2 h)]
    | noUri h =>
      rw [(uri_none _).2 h]
      split <;> rfl
    | wrong hu hb hm =>
      rw [(uri_iff _ _ _).2 hu]
      simp only [(byMail_iff _ _).2 hb, if_true, hm]
      split <;> rfl
    | @mail scheme rest m rcpts ha hu hb hm hr =>
      rw [if_neg (fun e => ha ((automatic_iff _).1 e)), (uri_iff _ _ _).2 hu]
      simp only [(byMail_iff _ _).2 hb, if_true, hm, (bareAll _ _).2 hr, fcc1, List.cons_append, List.nil_append]
    | @host scheme rest t ha hu hb ht hf =>
      rw [if_neg (fun e => ha ((automatic_iff _).1 e)), (uri_iff _ _ _).2 hu]
      have hb : (same scheme "mailto".toList && decide (c.numOut < c.maxOut)) = false := by
        rw [Bool.eq_false_iff]; exact fun e => hb ((byMail_iff _ _).1 e)
      simp only [hb, Bool.false_eq_true, if_false, (hostText _ _ _).2 ht, hf, Option.isSome_none]
    | @hostCopy scheme rest t f ha hu hb ht hf =>
      rw [if_neg (fun e => ha ((automatic_iff _).1 e)), (uri_iff _ _ _).2 hu]
      have hb : (same scheme "mailto".toList && decide (c.numOut < c.maxOut)) = false := by
        rw [Bool.eq_false_iff]; exact fun e => hb ((byMail_iff _ _).1 e)
      simp only [hb, Bool.false_eq_true, if_false, (hostText _ _ _).2 ht, fcc1, hf, Option.isSome_some, if_true,
        Option.map_some, Option.toList_some]

/-- Everyone named in the URI gets the message, but those it names under `Bcc` are not told by it: the message is the same
as if there were none. -/
theorem bcc_hidden (x : Ext) (c : Ctx) (a : Args) (date msgId scheme rest : Str) (m : Address.Mailto) (ha : ¬ Automatic c.headers)
    (hu : Uri a.method scheme rest) (hb : ByMail c scheme) (hm : Address.parseMailto x.mailto (x.encode rest) = some m) :
    (exec x c a date msgId).events.take 2 =
      [.created (c.lastId + 1) (render c a ⟨m.to_.map x.decode, m.cc.map x.decode, [], m.body.map x.decode,
          m.headers.map fun h => (x.decode h.1, x.decode h.2)⟩ date msgId),
        .send ((m.to_ ++ m.cc ++ m.bcc).map fun s => bare (x.decode s)) (c.lastId + 1)] := by
  unfold exec
  rw [if_neg (fun e => ha ((automatic_iff _).1 e)), (uri_iff _ _ _).2 hu]
  simp only [(byMail_iff _ _).2 hb, if_true, mailOf, hm, Option.map_some, List.take, List.map_append, List.map_map]
  rfl

/-- The importance handed to the host. -/
theorem importance_value (a : Args) :
    (importance a = .high ↔ a.importance = some "1".toList) ∧ (importance a = .low ↔ a.importance = some "3".toList) := by
  unfold importance
  cases a.importance with
  | none => simp
  | some i =>
    by_cases h1 : i = "1".toList
    · subst h1; decide
    · by_cases h3 : i = "3".toList
      · subst h3; decide
      · simp only [if_neg h1, if_neg h3, Option.some.injEq, h1, h3]
        simp

/-! ## C91: the message -/

/-- The text `w` occurs in `s`, however its letters are written. -/
def Occurs (w s : Str) : Prop := ∃ p u q, s = p ++ u ++ q ∧ lower u = lower w

/-- The sender: the one given if the user's address occurs in it, otherwise the user. -/
def IsSender (c : Ctx) (a : Args) (f : Str) : Prop :=
  (a.from = some f ∧ Occurs c.user f) ∨ (f = c.userFrom ∧ ∀ g, a.from = some g → ¬ Occurs c.user g)

/-- A field of the URI with this name and a text. -/
def Named (name : String) (h : Str × Str) : Prop := h.2 ≠ [] ∧ lower h.1 = lower name.toList

/-- The text that is used if the URI has none. -/
def Default (c : Ctx) (a : Args) (t : Str) : Prop := HostText c a t

/-- The subject: of the URI (the last one), otherwise as for the host. -/
def IsSubject (c : Ctx) (a : Args) (m : Mail) (t : Str) : Prop :=
  (∃ pre n post, m.headers = pre ++ (n, t) :: post ∧ Named "Subject" (n, t) ∧ ∀ h ∈ post, ¬ Named "Subject" h)
  ∨ ((∀ h ∈ m.headers, ¬ Named "Subject" h) ∧ Default c a t)

/-- The body: of the URI, otherwise as for the host. -/
def IsBody (c : Ctx) (a : Args) (m : Mail) (t : Str) : Prop :=
  m.body = some t ∨ (m.body = none ∧ Default c a t)

/-- An address in angle brackets. -/
def InAngles (s t : Str) : Prop := ('<' ∈ s ∧ t = s) ∨ ('<' ∉ s ∧ t = "<".toList ++ s ++ ">".toList)

/-- A field with addresses, left out if there are none. -/
inductive AddressField (name : String) : List Str → List (Str × Str) → Prop
  | none : AddressField name [] []
  | some {s ss ts} : List.Forall₂ InAngles (s :: ss) ts →
      AddressField name (s :: ss) [(name.toList, (ts.intersperse ", ".toList).flatten)]

/-- A field that is there unless the URI has one. -/
def Unless (m : Mail) (name : String) (v : Str) (fs : List (Str × Str)) : Prop :=
  ((∃ h ∈ m.headers, Named name h) ∧ fs = []) ∨ ((∀ h ∈ m.headers, ¬ Named name h) ∧ fs = [(name.toList, v)])

/-- How important the message is said to be. -/
def Weight (a : Args) (i p : String) : Prop :=
  (a.importance = some "1".toList ∧ i = "High" ∧ p = "1 (High)")
  ∨ (a.importance = some "3".toList ∧ i = "Low" ∧ p = "5 (Low)")
  ∨ (a.importance ≠ some "1".toList ∧ a.importance ≠ some "3".toList ∧ i = "Normal" ∧ p = "3 (Normal)")

/-- The fields of the message and its body. -/
inductive Consists (c : Ctx) (a : Args) (m : Mail) (date msgId : Str) : List (Str × Str) → Str → Prop
  | mk {f to_ cc extra dt mid i p s b} : IsSender c a f → AddressField "To" m.to_ to_ → AddressField "Cc" m.cc cc →
      (∃ keep : Str × Str → Bool, extra = m.headers.filter keep ∧
        ∀ h, keep h = true ↔ ¬ Named "Subject" h ∧ ¬ Named "From" h) →
      Unless m "Date" date dt → Unless m "Message-ID" msgId mid → Weight a i p → IsSubject c a m s → IsBody c a m b →
      Consists c a m date msgId
        ([("From".toList, f)] ++ to_ ++ cc ++ extra ++ dt ++ mid
          ++ [("Importance".toList, i.toList), ("X-Priority".toList, p.toList), ("Subject".toList, cutSubject s),
            ("Auto-Submitted".toList, "auto-notified".toList), ("X-Sieve".toList, "yes".toList),
            ("Content-type".toList, "text/plain; charset=utf-8".toList)]) b

/-- A field as text. -/
def shown (f : Str × Str) : Str := f.1 ++ ": ".toList ++ f.2

/-- A name that starts a field. -/
def GoodName (n : Str) : Prop := ∃ ch cs, n = ch :: cs ∧ ch ∉ ['\n', '\r', ' ', '\t'] ∧ '\n' ∉ cs

theorem read_all (b : Str) : ∀ (fs : List (Str × Str)), (∀ f ∈ fs, GoodName f.1 ∧ OneLine f.2) →
    readMessage [] (fs.flatMap (fun f => shown f ++ "\r\n".toList) ++ ("\r\n".toList ++ b)) = (fs.map shown, b)
  | [], _ => by
    show readMessage [] ('\r' :: '\n' :: b) = _
    rw [readMessage, if_neg (by decide), readMessage, if_pos rfl,
      if_pos (by decide : List.isEmpty (Vacation.unCr ([] ++ ['\r'])) = true)]
    rfl
  | f :: fs, h => by
    have ih := read_all b fs fun g hg => h g (List.mem_cons_of_mem _ hg)
    obtain ⟨⟨ch, cs, hn, hc, hcs⟩, hv⟩ := h f List.mem_cons_self
    have hb : startsBlank (fs.flatMap (fun f => shown f ++ "\r\n".toList) ++ ("\r\n".toList ++ b)) = false := by
      cases fs with
      | nil => rfl
      | cons g gs =>
        obtain ⟨⟨d, ds, hd, hdc, _⟩, _⟩ := h g (List.mem_cons_of_mem _ List.mem_cons_self)
        simp only [List.mem_cons, List.not_mem_nil, or_false, not_or] at hdc
        simp [List.flatMap_cons, shown, hd, startsBlank, hdc]
    simp only [List.mem_cons, List.not_mem_nil, or_false, not_or] at hc
    have := read_named (f.1 ++ ": ".toList) ch (cs ++ ": ".toList) f.2 _ (by rw [hn]; rfl) ⟨hc.1, hc.2.1⟩
      (by simp [hcs]) (oneLine_raw hv) hb
    rw [ih] at this
    simp only [List.flatMap_cons, List.map_cons]
    refine Eq.trans ?_ this
    simp [shown]

theorem infix_iff (n s : Str) : Tests.infixOf n s = true ↔ n <:+: s := by
  unfold Tests.infixOf
  simp only [List.any_eq_true, List.mem_tails, List.isPrefixOf_iff_prefix]
  constructor
  · rintro ⟨t, h1, h2⟩
    exact List.IsInfix.trans h2.isInfix h1.isInfix
  · rintro ⟨p, q, rfl⟩
    exact ⟨n ++ q, ⟨p, by simp⟩, ⟨q, rfl⟩⟩

theorem occurs_iff (w s : Str) : Tests.infixOf (lower w) (lower s) = true ↔ Occurs w s := by
  rw [infix_iff]
  constructor
  · rintro ⟨p, q, h⟩
    unfold lower at h
    obtain ⟨l, r, rfl, h1, h2⟩ := List.map_eq_append_iff.1 h.symm
    obtain ⟨l1, l2, rfl, h3, h4⟩ := List.map_eq_append_iff.1 h1
    exact ⟨l1, l2, r, rfl, h4⟩
  · rintro ⟨p, u, q, rfl, h⟩
    exact ⟨lower p, lower q, by rw [← h]; simp [lower]⟩

theorem sender_is (c : Ctx) (a : Args) : IsSender c a (sender c a) := by
  unfold sender IsSender
  cases hf : a.from with
  | none => simp
  | some f =>
    simp only
    split
    · rename_i h
      exact .inl ⟨rfl, (occurs_iff _ _).1 h⟩
    · rename_i h
      refine .inr ⟨rfl, fun g hg => ?_⟩
      injection hg with hg
      subst hg
      exact fun e => h ((occurs_iff _ _).2 e)

theorem kind_iff (h : Str × Str) :
    (kind h = .subject ↔ Named "Subject" h) ∧ (kind h = .date ↔ Named "Date" h)
    ∧ (kind h = .messageId ↔ Named "Message-ID" h) ∧ (kind h = .from ↔ Named "From" h) := by
  have hk : ∀ s : String, Named s h ↔ h.2 ≠ [] ∧ same h.1 s.toList = true := fun s => by rw [same_iff]; rfl
  have hne : ∀ s t : String, lower s.toList ≠ lower t.toList → same h.1 s.toList = true → same h.1 t.toList = false := by
    intro s t hst h1
    rw [Bool.eq_false_iff]
    intro h2
    exact hst (by rw [← (same_iff _ _).1 h1, (same_iff _ _).1 h2])
  simp only [hk]
  unfold kind
  by_cases h0 : h.2 = []
  · simp [h0]
  · have h0' : h.2.isEmpty = false := by simpa using h0
    simp only [h0', Bool.false_eq_true, if_false, ne_eq, h0, not_false_eq_true, true_and]
    by_cases h1 : same h.1 "Subject".toList = true
    · simp only [h1, if_true, hne _ "Date" (by decide) h1, hne _ "Message-ID" (by decide) h1, hne _ "From" (by decide) h1]
      simp
    · by_cases h2 : same h.1 "Date".toList = true
      · simp only [h1, h2, if_true, hne _ "Message-ID" (by decide) h2, hne _ "From" (by decide) h2]
        simp
      · by_cases h3 : same h.1 "Message-ID".toList = true
        · simp only [h1, h2, h3, if_true, hne _ "From" (by decide) h3]
          simp
        · by_cases h4 : same h.1 "From".toList = true
          · simp only [h1, h2, h3, h4]
            simp
          · simp only [h1, h2, h3, h4]
            simp

theorem lastSubject_spec : ∀ (hs : List (Str × Str)) (s : Option Str),
    (∃ pre n t post, hs = pre ++ (n, t) :: post ∧ Named "Subject" (n, t) ∧ (∀ h ∈ post, ¬ Named "Subject" h)
      ∧ lastSubject hs s = some t) ∨ ((∀ h ∈ hs, ¬ Named "Subject" h) ∧ lastSubject hs s = s)
  | [], s => .inr ⟨by simp, rfl⟩
  | h :: hs, s => by
    rw [lastSubject]
    rcases lastSubject_spec hs (if kind h = .subject then some h.2 else s) with ⟨pre, n, t, post, h1, h2, h3, h4⟩ | ⟨h1, h2⟩
    · exact .inl ⟨h :: pre, n, t, post, by rw [h1]; rfl, h2, h3, h4⟩
    · by_cases hk : kind h = .subject
      · left
        refine ⟨[], h.1, h.2, hs, rfl, (kind_iff h).1.1 hk, h1, ?_⟩
        rw [h2, if_pos hk]
      · right
        refine ⟨?_, by rw [h2, if_neg hk]⟩
        intro g hg
        rcases List.mem_cons.1 hg with rfl | hg
        · exact fun e => hk ((kind_iff _).1.2 e)
        · exact h1 g hg

theorem subject_is (c : Ctx) (a : Args) (m : Mail) : IsSubject c a m (subject c a m) := by
  unfold IsSubject subject
  rcases lastSubject_spec m.headers none with ⟨pre, n, t, post, h1, h2, h3, h4⟩ | ⟨h1, h2⟩
  · rw [h4]
    exact .inl ⟨pre, n, post, h1, h2, h3⟩
  · rw [h2]
    exact .inr ⟨h1, (hostText _ _ _).1 rfl⟩

theorem body_is (c : Ctx) (a : Args) (m : Mail) : IsBody c a m (body c a m) := by
  unfold IsBody body
  cases m.body with
  | some b => exact .inl rfl
  | none => exact .inr ⟨rfl, (hostText _ _ _).1 rfl⟩

theorem angled_is (s : Str) : InAngles s (angled s) := by
  unfold InAngles angled
  by_cases h : '<' ∈ s
  · exact .inl ⟨h, by rw [if_pos (by simpa using h)]⟩
  · exact .inr ⟨h, by rw [if_neg (by simpa using h)]; rfl⟩

theorem joined_is : ∀ (s : Str) (ss : List Str),
    joined (s :: ss) = (((s :: ss).map angled).intersperse ", ".toList).flatten
  | s, [] => by simp [joined]
  | s, t :: ss => by
    rw [joined, joined_is t ss]
    · simp
    · simp

theorem mapAngled : ∀ ss : List Str, List.Forall₂ InAngles ss (ss.map angled)
  | [] => .nil
  | s :: ss => .cons (angled_is s) (mapAngled ss)

theorem addressField_is (name : String) (ss : List Str) : ∃ fs, AddressField name ss fs
    ∧ addressField (name.toList ++ ": ".toList) ss = fs.flatMap fun f => shown f ++ "\r\n".toList := by
  cases ss with
  | nil => exact ⟨[], .none, rfl⟩
  | cons s ss =>
    refine ⟨_, .some (mapAngled (s :: ss)), ?_⟩
    unfold addressField
    rw [joined_is]
    simp [shown]

theorem addressField_unique {name : String} {ss : List Str} {fs gs : List (Str × Str)} (h : AddressField name ss fs)
    (h' : AddressField name ss gs) : fs = gs := by
  have ang : ∀ {s t u}, InAngles s t → InAngles s u → t = u := by
    rintro s t u (⟨h1, rfl⟩ | ⟨h1, rfl⟩) (⟨h2, rfl⟩ | ⟨h2, rfl⟩)
    · rfl
    · exact absurd h1 h2
    · exact absurd h2 h1
    · rfl
  have all : ∀ {l ts us}, List.Forall₂ InAngles l ts → List.Forall₂ InAngles l us → ts = us := by
    intro l ts us h
    induction h generalizing us with
    | nil => intro h'; cases h'; rfl
    | cons h1 _ ih => intro h'; cases h' with | cons h2 h3 => rw [ang h1 h2, ih h3]
  cases h with
  | none => cases h'; rfl
  | some h => cases h' with | some h2 => rw [all h h2]

/-- Fields of the URI that are written. -/
def keeps (h : Str × Str) : Bool := kind h ≠ .subject ∧ kind h ≠ .from

theorem extraFields_is : ∀ hs : List (Str × Str),
    extraFields hs = (hs.filter keeps).flatMap fun f => shown f ++ "\r\n".toList
  | [] => rfl
  | h :: hs => by
    rw [extraFields, extraFields_is hs]
    cases hk : kind h <;> simp [keeps, hk, shown]

theorem unless_is (m : Mail) (name : String) (v : Str) (k : Kind) (hk : ∀ h, kind h = k ↔ Named name h) :
    ∃ fs, Unless m name v fs ∧ (if m.headers.any fun h => kind h = k then [] else name.toList ++ ": ".toList ++ v ++ "\r\n".toList)
      = fs.flatMap fun f => shown f ++ "\r\n".toList := by
  by_cases h : (m.headers.any fun h => kind h = k) = true
  · rw [if_pos h]
    simp only [List.any_eq_true, decide_eq_true_eq] at h
    obtain ⟨g, hg, hk'⟩ := h
    exact ⟨[], .inl ⟨⟨g, hg, (hk g).1 hk'⟩, rfl⟩, rfl⟩
  · rw [if_neg h]
    simp only [List.any_eq_true, decide_eq_true_eq, not_exists, not_and] at h
    exact ⟨_, .inr ⟨fun g hg e => h g hg ((hk g).2 e), rfl⟩, by simp [shown]⟩

theorem weight_is (a : Args) : ∃ i p : String, Weight a i p ∧ priority a = (i.toList, p.toList) := by
  unfold Weight priority
  cases a.importance with
  | none => exact ⟨"Normal", "3 (Normal)", by simp, rfl⟩
  | some i =>
    by_cases h1 : i = "1".toList
    · exact ⟨"High", "1 (High)", .inl ⟨by rw [h1], rfl, rfl⟩, by simp only [if_pos h1]⟩
    · by_cases h3 : i = "3".toList
      · exact ⟨"Low", "5 (Low)", .inr (.inl ⟨by rw [h3], rfl, rfl⟩), by simp only [if_neg h1, if_pos h3]⟩
      · exact ⟨"Normal", "3 (Normal)", .inr (.inr ⟨by simpa using h1, by simpa using h3, rfl, rfl⟩),
          by simp only [if_neg h1, if_neg h3]⟩

/-- The message as it is written consists of the fields it should have and its body. -/
theorem render_is (c : Ctx) (a : Args) (m : Mail) (date msgId : Str) : ∃ fs b, Consists c a m date msgId fs b
    ∧ render c a m date msgId = fs.flatMap (fun f => shown f ++ "\r\n".toList) ++ ("\r\n".toList ++ b) := by
  obtain ⟨to_, t1, t2⟩ := addressField_is "To" m.to_
  obtain ⟨cc, c1, c2⟩ := addressField_is "Cc" m.cc
  obtain ⟨dt, d1, d2⟩ := unless_is m "Date" date .date fun h => (kind_iff h).2.1
  obtain ⟨mid, m1, m2⟩ := unless_is m "Message-ID" msgId .messageId fun h => (kind_iff h).2.2.1
  obtain ⟨i, p, w1, w2⟩ := weight_is a
  refine ⟨_, _, .mk (sender_is c a) t1 c1 ⟨keeps, rfl, fun h => ?_⟩ d1 m1 w1 (subject_is c a m) (body_is c a m), ?_⟩
  · simp [keeps, (kind_iff h).1, (kind_iff h).2.2.2]
  · have t3 : addressField "To: ".toList m.to_ = _ := t2
    have c3 : addressField "Cc: ".toList m.cc = _ := c2
    have d3 : (if m.headers.any fun h => kind h = .date then [] else "Date: ".toList ++ date ++ "\r\n".toList) = _ := d2
    have m3 : (if m.headers.any fun h => kind h = .messageId then [] else
      "Message-ID: ".toList ++ msgId ++ "\r\n".toList) = _ := m2
    unfold render
    rw [t3, c3, d3, m3, extraFields_is, w2,
      show "From: ".toList = "From".toList ++ ": ".toList from rfl,
      show "Importance: ".toList = "Importance".toList ++ ": ".toList from rfl,
      show "X-Priority: ".toList = "X-Priority".toList ++ ": ".toList from rfl,
      show "Subject: ".toList = "Subject".toList ++ ": ".toList from rfl,
      show "Auto-Submitted: auto-notified\r\n".toList =
        "Auto-Submitted".toList ++ ": ".toList ++ "auto-notified".toList ++ "\r\n".toList from rfl,
      show "X-Sieve: yes\r\n".toList = "X-Sieve".toList ++ ": ".toList ++ "yes".toList ++ "\r\n".toList from rfl,
      show "Content-type: text/plain; charset=utf-8\r\n\r\n".toList = "Content-type".toList ++ ": ".toList ++
        "text/plain; charset=utf-8".toList ++ "\r\n".toList ++ "\r\n".toList from rfl]
    simp only [List.flatMap_append, List.flatMap_cons, List.flatMap_nil, shown, List.append_assoc, List.append_nil,
      List.nil_append]

/-- The fields and the body are determined. -/
theorem consists_unique {c : Ctx} {a : Args} {m : Mail} {date msgId : Str} {fs gs : List (Str × Str)} {b d : Str}
    (h : Consists c a m date msgId fs b) (h' : Consists c a m date msgId gs d) : fs = gs ∧ b = d := by
  have dflt : ∀ {s t}, Default c a s → Default c a t → s = t := fun h1 h2 => by
    rw [← (hostText c a _).2 h1, ← (hostText c a _).2 h2]
  cases h with
  | @mk f to_ cc extra dt mid i p s b f1 t1 c1 e1 d1 m1 w1 s1 b1 =>
  cases h' with
  | @mk f' to_' cc' extra' dt' mid' i' p' s' b' f2 t2 c2 e2 d2 m2 w2 s2 b2 =>
    have hf : f = f' := by
      rcases f1 with ⟨h1, h2⟩ | ⟨h1, h2⟩ <;> rcases f2 with ⟨h3, h4⟩ | ⟨h3, h4⟩
      · rw [h1] at h3; injection h3
      · exact absurd h2 (h4 _ h1)
      · exact absurd h4 (h2 _ h3)
      · rw [h1, h3]
    have he : extra = extra' := by
      obtain ⟨k, rfl, hk⟩ := e1
      obtain ⟨k', rfl, hk'⟩ := e2
      have : k = k' := by
        funext h
        rw [Bool.eq_iff_iff, hk, hk']
      rw [this]
    have un : ∀ {n v x y}, Unless m n v x → Unless m n v y → x = y := by
      rintro n v x y (⟨⟨h, hh, h1⟩, rfl⟩ | ⟨h1, rfl⟩) (⟨⟨h', hh', h2⟩, rfl⟩ | ⟨h2, rfl⟩)
      · rfl
      · exact absurd h1 (h2 h hh)
      · exact absurd h2 (h1 h' hh')
      · rfl
    have hw : i = i' ∧ p = p' := by
      rcases w1 with ⟨h1, rfl, rfl⟩ | ⟨h1, rfl, rfl⟩ | ⟨h1, h1', rfl, rfl⟩ <;>
        rcases w2 with ⟨h2, rfl, rfl⟩ | ⟨h2, rfl, rfl⟩ | ⟨h2, h2', rfl, rfl⟩ <;>
        first
        | exact ⟨rfl, rfl⟩
        | (exfalso; rw [h1] at h2; revert h2; decide)
        | exact absurd h1 h2
        | exact absurd h1 h2'
        | exact absurd h2 h1
        | exact absurd h2 h1'
    have hs : s = s' := by
      rcases s1 with ⟨p1, n1, q1, h1, k1, l1⟩ | ⟨h1, k1⟩ <;> rcases s2 with ⟨p2, n2, q2, h2, k2, l2⟩ | ⟨h2, k2⟩
      · rw [h1] at h2
        rcases List.append_eq_append_iff.1 h2 with ⟨w, e1, e2⟩ | ⟨w, e1, e2⟩
        · cases w with
          | nil => simp at e2; exact e2.1.2
          | cons g w =>
            simp only [List.cons_append, List.cons.injEq] at e2
            exact absurd k2 (l1 _ (by rw [e2.2]; simp))
        · cases w with
          | nil => simp at e2; exact e2.1.2.symm
          | cons g w =>
            simp only [List.cons_append, List.cons.injEq] at e2
            exact absurd k1 (l2 _ (by rw [e2.2]; simp))
      · exact absurd k1 (h2 _ (by rw [h1]; simp))
      · exact absurd k2 (h1 _ (by rw [h2]; simp))
      · exact dflt k1 k2
    have hb : b = d := by
      rcases b1 with h1 | ⟨h1, k1⟩ <;> rcases b2 with h2 | ⟨h2, k2⟩
      · rw [h1] at h2; injection h2
      · rw [h1] at h2; simp at h2
      · rw [h1] at h2; simp at h2
      · exact dflt k1 k2
    rw [hf, addressField_unique t1 t2, addressField_unique c1 c2, he, un d1 d2, un m1 m2, hw.1, hw.2, hs, hb]
    exact ⟨rfl, rfl⟩

/-- No text that goes into the header has a line break. -/
structure Lines (c : Ctx) (a : Args) (m : Mail) (date msgId : Str) : Prop where
  user : OneLine c.userFrom
  «from» : ∀ f, a.from = some f → OneLine f
  message : ∀ t, a.message = some t → OneLine t
  subject : ∀ t, c.subject = some t → OneLine t
  to_ : ∀ s ∈ m.to_, OneLine s
  cc : ∀ s ∈ m.cc, OneLine s
  headers : ∀ h ∈ m.headers, GoodName h.1 ∧ OneLine h.2
  date : OneLine date
  msgId : OneLine msgId

theorem joined_line {ss ts : List Str} (h : List.Forall₂ InAngles ss ts) (hl : ∀ s ∈ ss, OneLine s) :
    OneLine ((ts.intersperse ", ".toList).flatten) := by
  have one : ∀ t ∈ ts, OneLine t := by
    induction h with
    | nil => simp
    | cons h1 _ ih =>
      intro t ht
      rcases List.mem_cons.1 ht with rfl | ht
      · have := hl _ List.mem_cons_self
        rcases h1 with ⟨_, rfl⟩ | ⟨_, rfl⟩
        · exact this
        · unfold OneLine at *; simp [this]
      · exact ih (fun s hs => hl s (List.mem_cons_of_mem _ hs)) t ht
  unfold OneLine at *
  intro hm
  obtain ⟨l, hl1, hl2⟩ := List.mem_flatten.1 hm
  have : ∀ (ts : List Str), l ∈ ts.intersperse ", ".toList → l ∈ ts ∨ l = ", ".toList := by
    intro ts
    induction ts with
    | nil => simp
    | cons t ts ih =>
      cases ts with
      | nil => intro h; left; simpa using h
      | cons u us =>
        rw [List.intersperse_cons₂]
        intro h
        rcases List.mem_cons.1 h with rfl | h
        · simp
        · rcases List.mem_cons.1 h with rfl | h
          · simp
          · rcases ih h with h | h
            · exact .inl (List.mem_cons_of_mem _ h)
            · exact .inr h
  rcases this ts hl1 with h | rfl
  · exact one l h hl2
  · revert hl2; decide

theorem good_of (n : String) (h : (match n.toList with
    | [] => false
    | ch :: cs => !(['\n', '\r', ' ', '\t'].contains ch) && !(cs.contains '\n')) = true) : GoodName n.toList := by
  cases hn : n.toList with
  | nil => rw [hn] at h; simp at h
  | cons ch cs =>
    rw [hn] at h
    simp only [Bool.and_eq_true, Bool.not_eq_true', List.contains_eq_mem, decide_eq_false_iff_not] at h
    exact ⟨ch, cs, rfl, h.1, h.2⟩

/-- **C91.** If no text that goes into the header has a line break, whoever reads the message finds exactly the header
fields it should have, and its body. -/
theorem notification_fields_partial (c : Ctx) (a : Args) (m : Mail) (date msgId : Str) (h : Lines c a m date msgId)
    {fs : List (Str × Str)} {b : Str} (hc : Consists c a m date msgId fs b) :
    readMessage [] (render c a m date msgId) = (fs.map shown, b) := by
  obtain ⟨gs, d, h1, h2⟩ := render_is c a m date msgId
  obtain ⟨rfl, rfl⟩ := consists_unique hc h1
  rw [h2]
  apply read_all
  cases hc with
  | @mk f to_ cc extra dt mid i p s b f1 t1 c1 e1 d1 m1 w1 s1 b1 =>
    have dl : ∀ {t}, Default c a t → OneLine t := by
      rintro t (h1 | ⟨_, h1⟩ | ⟨_, _, rfl⟩)
      · exact h.message _ h1
      · exact h.subject _ h1
      · simp [OneLine]
    have addr : ∀ {n : String} {ss : List Str} {x}, GoodName n.toList → (∀ s ∈ ss, OneLine s) → AddressField n ss x →
        ∀ g ∈ x, GoodName g.1 ∧ OneLine g.2 := by
      intro n ss x hn hl hx g hg
      cases hx with
      | none => simp at hg
      | some h1 =>
        rw [List.mem_singleton] at hg
        subst hg
        exact ⟨hn, joined_line h1 hl⟩
    have unl : ∀ {n : String} {v x}, GoodName n.toList → OneLine v → Unless m n v x → ∀ g ∈ x, GoodName g.1 ∧ OneLine g.2 := by
      rintro n v x hn hv (⟨_, rfl⟩ | ⟨_, rfl⟩) g hg
      · simp at hg
      · rw [List.mem_singleton] at hg
        subst hg
        exact ⟨hn, hv⟩
    have hi : OneLine i.toList ∧ OneLine p.toList := by
      rcases w1 with ⟨_, rfl, rfl⟩ | ⟨_, rfl, rfl⟩ | ⟨_, _, rfl, rfl⟩ <;> (unfold OneLine; decide)
    have hs : OneLine s := by
      rcases s1 with ⟨pre, n, post, h3, _, _⟩ | ⟨_, h3⟩
      · exact (h.headers (n, s) (by rw [h3]; simp)).2
      · exact dl h3
    intro g hg
    simp only [List.mem_append, List.mem_cons, List.not_mem_nil, or_false] at hg
    rcases hg with ((((((rfl | hg) | hg) | hg) | hg) | hg) | (rfl | rfl | rfl | rfl | rfl | rfl))
    · refine ⟨good_of "From" (by decide), ?_⟩
      rcases f1 with ⟨h3, _⟩ | ⟨h3, _⟩
      · exact h.from _ h3
      · rw [h3]; exact h.user
    · exact addr (good_of "To" (by decide)) h.to_ t1 g hg
    · exact addr (good_of "Cc" (by decide)) h.cc c1 g hg
    · obtain ⟨k, rfl, _⟩ := e1
      exact h.headers g (List.mem_filter.1 hg).1
    · exact unl (good_of "Date" (by decide)) h.date d1 g hg
    · exact unl (good_of "Message-ID" (by decide)) h.msgId m1 g hg
    · exact ⟨good_of "Importance" (by decide), hi.1⟩
    · exact ⟨good_of "X-Priority" (by decide), hi.2⟩
    · exact ⟨good_of "Subject" (by decide), cut_oneLine hs⟩
    · exact ⟨good_of "Auto-Submitted" (by decide), by unfold OneLine; decide⟩
    · exact ⟨good_of "X-Sieve" (by decide), by unfold OneLine; decide⟩
    · exact ⟨good_of "Content-type" (by decide), by unfold OneLine; decide⟩

/-- **C91.** There are such fields. -/
theorem notification_exists (c : Ctx) (a : Args) (m : Mail) (date msgId : Str) :
    ∃ fs b, Consists c a m date msgId fs b :=
  let ⟨fs, b, h, _⟩ := render_is c a m date msgId
  ⟨fs, b, h⟩

/-- The number of fields with a name. -/
def count (name : String) (fs : List (Str × Str)) : Nat := (fs.filter fun f => same f.1 name.toList).length

/-- **C91.** If every field of the URI has a text, the message has one `From` and one `Subject`. -/
theorem notification_once_partial (c : Ctx) (a : Args) (m : Mail) (date msgId : Str) {fs : List (Str × Str)} {b : Str}
    (h : Consists c a m date msgId fs b) (ht : ∀ h ∈ m.headers, h.2 ≠ []) :
    count "From" fs = 1 ∧ count "Subject" fs = 1 := by
  cases h with
  | @mk f to_ cc extra dt mid i p s b f1 t1 c1 e1 d1 m1 w1 s1 b1 =>
    have addr : ∀ {n k : String} {ss : List Str} {x}, same n.toList k.toList = false → AddressField n ss x → count k x = 0 := by
      intro n k ss x hn hx
      cases hx with
      | none => rfl
      | some _ => simp [count, hn]
    have unl : ∀ {n k : String} {v x}, same n.toList k.toList = false → Unless m n v x → count k x = 0 := by
      rintro n k v x hn (⟨_, rfl⟩ | ⟨_, rfl⟩)
      · rfl
      · simp [count, hn]
    have ex : count "From" extra = 0 ∧ count "Subject" extra = 0 := by
      obtain ⟨k, rfl, hk⟩ := e1
      constructor
      · unfold count
        rw [List.length_eq_zero_iff, List.filter_eq_nil_iff]
        intro g hg e
        obtain ⟨h1, h2⟩ := List.mem_filter.1 hg
        exact ((hk g).1 h2).2 ⟨ht g h1, (same_iff _ _).1 e⟩
      · unfold count
        rw [List.length_eq_zero_iff, List.filter_eq_nil_iff]
        intro g hg e
        obtain ⟨h1, h2⟩ := List.mem_filter.1 hg
        exact ((hk g).1 h2).1 ⟨ht g h1, (same_iff _ _).1 e⟩
    have app : ∀ n (x y : List (Str × Str)), count n (x ++ y) = count n x + count n y := by
      intro n x y
      simp [count]
    simp only [app]
    rw [addr (k := "From") (by decide) t1, addr (k := "From") (by decide) c1, ex.1, unl (k := "From") (by decide) d1,
      unl (k := "From") (by decide) m1, addr (k := "Subject") (by decide) t1, addr (k := "Subject") (by decide) c1, ex.2,
      unl (k := "Subject") (by decide) d1, unl (k := "Subject") (by decide) m1]
    constructor <;> rfl

/-! ## Loops and limits -/

/-- **C90.** A notification is marked such that no notification is made about it. -/
theorem notification_silent (x : Ext) (c : Ctx) (a : Args) (date msgId : Str) (f : Field)
    (h : (Hd.other "Auto-Submitted".toList, f) ∈ c.headers) (ht : f.parsed = .text "auto-notified".toList) :
    (exec x c a date msgId).events = [] := by
  have : exec x c a date msgId = _ := (notify_iff x c a date msgId _).2 (.automatic ⟨_, f, h, rfl, fun t e => by
    rw [ht] at e
    injection e with e
    subst e
    decide⟩)
  rw [this]

/-- The message always says that it was sent automatically. -/
theorem notification_marked {c : Ctx} {a : Args} {m : Mail} {date msgId : Str} {fs : List (Str × Str)} {b : Str}
    (h : Consists c a m date msgId fs b) : ("Auto-Submitted".toList, "auto-notified".toList) ∈ fs := by
  cases h
  simp

/-- If too many messages have been sent, a `mailto` notification is not dropped: the host is asked to make it. -/
theorem over_limit (x : Ext) (c : Ctx) (a : Args) (date msgId scheme rest : Str) (h1 : ¬ Automatic c.headers)
    (h2 : Uri a.method scheme rest) (h3 : c.maxOut ≤ c.numOut) :
    ∃ t, Ev.notify a.method a.from (importance a) a.options t ∈ (exec x c a date msgId).events := by
  have hb : ¬ ByMail c scheme := fun h => by have := h.2; omega
  refine ⟨text c a, ?_⟩
  have ht := (hostText c a _).1 rfl
  cases hf : a.fcc with
  | none => rw [(notify_iff x c a date msgId _).2 (.host h1 h2 hb ht hf)]; simp
  | some f => rw [(notify_iff x c a date msgId _).2 (.hostCopy h1 h2 hb ht hf)]; simp

/-- Messages are not counted when they are sent: only notifications left to the host are. -/
theorem mail_not_counted (x : Ext) (c : Ctx) (a : Args) (date msgId : Str) {rs id}
    (h : Ev.send rs id ∈ (exec x c a date msgId).events) : (exec x c a date msgId).numOut = c.numOut := by
  generalize hr : exec x c a date msgId = r at h ⊢
  have := (notify_iff x c a date msgId r).1 hr
  cases this <;> first | rfl | (exfalso; simp at h)

/-! ## Cases -/

/-- ASCII text, and the names of fields as they are. -/
def exExt : Ext where
  encode s := s.map fun c => c.toNat.toUInt8
  decode b := b.map fun c => Char.ofNat c.toNat
  mailto :=
    { utf8 := fun _ => true
      parse := fun n =>
        if n = Args.bytes "to" then .addr .to
        else if n = Args.bytes "cc" then .addr .cc
        else if n = Args.bytes "bcc" then .addr .bcc
        else if n = Args.bytes "body" then .body
        else .other n }

def exCtx : Ctx := ⟨[], some "Hello".toList, "me@x".toList, "\"Me\" <me@x>".toList, 0, 3, 7⟩

def exArgs (method : String) («from» : Option String) : Args :=
  ⟨method.toList, «from».map String.toList, some "1".toList, [], none, none⟩

/-- The header fields of the message a notification sends. -/
def fieldsSent (r : Result) : List Str :=
  match r.events with
  | .created _ m :: _ => (readMessage [] m).1
  | _ => []

example : (exec exExt exCtx (exArgs "mailto:a@b?cc=c@d&subject=Hi&x=1" none) "D".toList "<1@h>".toList).events.drop 1 =
    [.send ["a@b".toList, "c@d".toList] 8] := by decide +kernel

example : (exec exExt exCtx (exArgs "mailto:a@b?bcc=c@d" none) "D".toList "<1@h>".toList).events.drop 1 =
      [.send ["a@b".toList, "c@d".toList] 8] ∧
    fieldsSent (exec exExt exCtx (exArgs "mailto:a@b?bcc=c@d" none) "D".toList "<1@h>".toList) =
      fieldsSent (exec exExt exCtx (exArgs "mailto:a@b" none) "D".toList "<1@h>".toList) := by decide +kernel

example : fieldsSent (exec exExt exCtx (exArgs "mailto:a@b?cc=c@d&subject=Hi&x=1" none) "D".toList "<1@h>".toList) =
    ["From: \"Me\" <me@x>", "To: <a@b>", "Cc: <c@d>", "x: 1", "Date: D", "Message-ID: <1@h>", "Importance: High",
      "X-Priority: 1 (High)", "Subject: Hi", "Auto-Submitted: auto-notified", "X-Sieve: yes",
      "Content-type: text/plain; charset=utf-8"].map String.toList := by decide +kernel

example : (exec exExt exCtx (exArgs "tel:1" none) [] []).events =
    [.notify "tel:1".toList none .high [] "Hello".toList] := by decide +kernel

example : Lines exCtx (exArgs "mailto:a@b" none) ⟨["a@b".toList], [], [], none, [("x".toList, "1".toList)]⟩ [] [] where
  user := by unfold OneLine; decide
  «from» := by intro f h; simp [exArgs] at h
  message := by intro f h; simp [exArgs] at h
  subject := by intro t h; simp only [exCtx, Option.some.injEq] at h; subst h; unfold OneLine; decide
  to_ := by intro s h; simp only [List.mem_singleton] at h; subst h; unfold OneLine; decide
  cc := by simp
  headers := by
    intro h hh
    simp only [List.mem_singleton] at hh
    subst hh
    exact ⟨⟨'x', [], rfl, by decide, by decide⟩, by unfold OneLine; decide⟩
  date := by simp [OneLine]
  msgId := by simp [OneLine]

/-- **C91 fails.** A line break in a text of the URI, written with percent signs, adds a field to the message. -/
theorem uri_injects : "Bcc: v@w".toList ∈ fieldsSent
    (exec exExt exCtx (exArgs "mailto:a@b?subject=x%0D%0ABcc:%20v@w" none) "D".toList "<1@h>".toList) := by decide +kernel

/-- **C91 fails.** So does one in the sender that the script gives. -/
theorem from_injects : "Bcc: v".toList ∈ fieldsSent
    (exec exExt exCtx (exArgs "mailto:a@b" (some "me@x.y\r\nBcc: v")) "D".toList "<1@h>".toList) := by decide +kernel

/-- **C91 fails.** The URI can claim that the message was not sent automatically (RFC 5436 2.7 wants the field of the URI
ignored). -/
theorem uri_auto_submitted : "auto-submitted: no".toList ∈ fieldsSent
    (exec exExt exCtx (exArgs "mailto:a@b?auto-submitted=no" none) "D".toList "<1@h>".toList) := by decide +kernel

/-- **C91 fails.** A URI that ends with `subject` gives the message a second field of that name. -/
theorem uri_second_subject : ((fieldsSent (exec exExt exCtx (exArgs "mailto:a@b?x=1&subject" none) "D".toList
    "<1@h>".toList)).filter fun l => same (nameOf l) "Subject".toList).length = 2 := by decide +kernel

/-- **C91 fails.** An address that only begins with the user's address is taken as the sender. -/
theorem sender_other (c : Ctx) (a : Args) (rest : Str) (h : a.from = some (c.user ++ rest)) :
    sender c a = c.user ++ rest := by
  have h1 := sender_is c a
  rcases h1 with ⟨h1, _⟩ | ⟨_, h2⟩
  · rw [h] at h1; injection h1 with h1; exact h1.symm
  · exact absurd ⟨[], c.user, rest, rfl, rfl⟩ (h2 _ h)

end Sieve.Notify
